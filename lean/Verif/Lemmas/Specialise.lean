/-
Task-specialised plans: the traversal of `Model/Recursion` computes `share`, and a task gets the same rows from it.
-/
import Verif.Props.Recursion

namespace DD.Tree.Rec

open DD.Tree

variable {Row S : Type}

theorem LeavesOk.child {ctx : TaskCtx} {k : Kind Row} {tc cs} (h : LeavesOk ctx (.node k tc cs))
    (hok : CtxOk ctx (.node k tc cs)) (hn : k.isNet = false)
    {i : Nat} {c : Plan Row} (hc : cs[i]? = some c) {ctx₁} (h1 : childCtx k ctx i = some ctx₁) : LeavesOk ctx₁ c := by
  intro ctx' o vs tc' cs' hat
  rcases isCiu k with ⟨ws', m', rfl⟩ | hk
  · obtain ⟨es, hes, _⟩ := hok ctx ws' m' tc cs .root
    have := childCtx_mem h1
    rw [getD_eq hes] at this
    exact h _ _ _ _ _ (.branch hes this hc hat)
  · rw [childCtx_other hk] at h1
    cases h1
    exact h _ _ _ _ _ (.child hn hk hc hat)

theorem shareAll_eq : ∀ (cs : List (Plan Row)) (arg : Nat → Option TaskCtx),
    shareAll arg cs = cs.mapIdx fun i c => match arg i with
      | none => emptyLike c
      | some ctx => share ctx c
  | [], _ => by simp [shareAll]
  | c :: cs, arg => by
    unfold shareAll
    rw [shareAll_eq cs, List.mapIdx_cons]
    rfl

theorem shareAll_length (cs : List (Plan Row)) (arg : Nat → Option TaskCtx) : (shareAll arg cs).length = cs.length := by
  rw [shareAll_eq]; simp

theorem isDistLeaf (k : Kind Row) : (∃ o vs, k = .distLeaf o vs) ∨ ∀ o vs, k ≠ .distLeaf o vs := by
  cases k
  case distLeaf o vs => exact .inl ⟨o, vs, rfl⟩
  all_goals exact .inr (by rintro _ _ ⟨⟩)

theorem share_node {k : Kind Row} (hk : ∀ o vs, k ≠ .distLeaf o vs) (ctx : TaskCtx) (tc) (cs : List (Plan Row)) :
    share ctx (.node k tc cs) = .node k tc (if k.isNet then cs else shareAll (childCtx k ctx) cs) := by
  unfold share
  cases k
  case distLeaf o vs => exact absurd rfl (hk o vs)
  all_goals rfl

theorem childCtx_none_iff {ws} {m : Union.TaskMap} {ctx : TaskCtx} {es} (hm : m[ctx.index]? = some es) (i : Nat) :
    childCtx (Row := Row) (.ciu ws m) ctx i = none ↔ es.any (fun e => e.1 == i) = false := by
  unfold childCtx
  simp only [getD_eq hm, Option.map_eq_none_iff, List.getLast?_eq_none_iff, List.filter_eq_nil_iff,
    List.any_eq_false]

theorem downIn_share : ∀ (fuel : Nat) (p : Plan Row) (ctx : TaskCtx), depth p ≤ fuel → CtxOk ctx p → LeavesOk ctx p →
    downIn specialiseNode fuel p (some ctx) () = .ok (⟨share ctx p, .cont⟩, ())
  | 0, .node _ _ _, _, h, _, _ => by simp [depth] at h
  | n + 1, .node k tc cs, ctx, h, hok, hlv => by
    have hdepth : ∀ c ∈ cs, depth c ≤ n := fun c hc => by
      have := depth_le hc
      simp only [depth] at h; omega
    have hpos : ∀ c ∈ cs, ∃ n', n = n' + 1 := fun c hc => ⟨n - 1, by
      have := hdepth c hc
      cases c; simp [depth] at this; omega⟩
    -- the children, possibly already replaced by empty leaves
    have hall : ∀ (l l' : List (Plan Row)) (arg : Nat → Option TaskCtx), (∀ c ∈ l, c ∈ cs) →
        l'.length = l.length →
        (∀ (i : Nat) c c', l[i]? = some c → l'[i]? = some c' → c' = match arg i with
          | none => emptyLike c
          | some _ => c) →
        (∀ (i : Nat) c ctx₁, l[i]? = some c → arg i = some ctx₁ → CtxOk ctx₁ c ∧ LeavesOk ctx₁ c) →
        eachUntilStop (downIn specialiseNode n) arg () l' = .ok (shareAll arg l, false, ()) := by
      intro l
      induction l with
      | nil =>
        intro l' arg _ hl _ _
        rw [List.length_eq_zero_iff.mp hl]
        simp [eachUntilStop, shareAll]
      | cons c l ih =>
        intro l' arg hsub hl heq hok
        cases l' with
        | nil => simp at hl
        | cons c' l' =>
          have hrest := ih l' (fun i => arg (i + 1)) (fun c hc => hsub c (by simp [hc])) (by simpa using hl)
            (fun i c c' h1 h2 => heq (i + 1) c c' h1 h2) (fun i c ctx₁ hc ha => hok (i + 1) c ctx₁ hc ha)
          have h0 := heq 0 c c' rfl rfl
          unfold eachUntilStop shareAll
          cases ha : arg 0 with
          | none =>
            rw [ha] at h0
            obtain ⟨n', rfl⟩ := hpos c (hsub c (by simp))
            simp only [downIn, bind, Except.bind, reduceCtorEq, if_false]
            rw [hrest, h0]
          | some ctx₁ =>
            rw [ha] at h0
            subst h0
            obtain ⟨o1, o2⟩ := hok 0 _ ctx₁ rfl ha
            rw [downIn_share n _ ctx₁ (hdepth _ (hsub _ (by simp))) o1 o2]
            simp only [bind, Except.bind, reduceCtorEq, if_false]
            rw [hrest]
    rcases isDistLeaf k with ⟨o, vs, rfl⟩ | hd
    · obtain ⟨rfl, hlt, _⟩ := hlv ctx o vs tc cs .root
      unfold downIn specialiseNode
      simp only [List.getElem?_eq_getElem hlt, bind, Except.bind, Plan.kind, Kind.isNet, Plan.children,
        Bool.false_eq_true, if_false]
      simp [assigned, Plan.kind, eachUntilStop, withChildren, share, hlt]
    · rw [share_node hd]
      rcases isCiu k with ⟨ws, m, rfl⟩ | hk
      · obtain ⟨es, hes, hnd, hle⟩ := hok ctx ws m tc cs .root
        have hsp : specialiseNode (S := Unit) (.node (.ciu ws m) tc cs) ctx ()
            = .ok (⟨.node (.ciu ws m) tc (specialiseUnion es cs), .cont⟩, ()) := by
          simp only [specialiseNode, hes]
        unfold downIn
        rw [hsp]
        have has : assigned (.node (.ciu ws m) tc (specialiseUnion es cs)) ctx = true := by
          have := hok.assigned
          simp only [assigned, Plan.kind, Plan.children, specialiseUnion, List.length_mapIdx] at this ⊢
          exact this
        simp only [bind, Except.bind, Plan.kind, Kind.isNet, Bool.false_eq_true, if_false, has, Bool.not_true,
          Plan.children]
        rw [hall cs (specialiseUnion es cs) (childCtx (.ciu ws m) ctx) (fun _ h => h) (by simp [specialiseUnion])]
        · simp [withChildren]
        · intro i c c' h1 h2
          simp only [specialiseUnion, List.getElem?_mapIdx, h1, Option.map_some, Option.some.injEq] at h2
          cases hc : childCtx (Row := Row) (.ciu ws m) ctx i with
          | none =>
            rw [(childCtx_none_iff hes i).mp hc] at h2
            exact h2.symm
          | some ctx₁ =>
            have : es.any (fun e => e.1 == i) = true := by
              rw [← Bool.not_eq_false, ← childCtx_none_iff (ws := ws) (Row := Row) hes, hc]
              simp
            rw [this] at h2
            exact h2.symm
        · intro i c ctx₁ hc ha
          exact ⟨hok.child rfl hc ha, hlv.child hok rfl hc ha⟩
      · have hsp : specialiseNode (S := Unit) (.node k tc cs) ctx () = .ok (⟨.node k tc cs, .cont⟩, ()) := by
          unfold specialiseNode
          cases k
          case distLeaf o vs => exact absurd rfl (hd o vs)
          case ciu ws m => exact absurd rfl (hk ws m)
          all_goals rfl
        unfold downIn
        rw [hsp]
        simp only [bind, Except.bind]
        cases hn : k.isNet with
        | true =>
          rw [if_pos (show (Plan.node k tc cs).kind.isNet = true from hn)]
          simp
        | false =>
          rw [if_neg (show ¬ (Plan.node k tc cs).kind.isNet = true by simp [Plan.kind, hn]), hok.assigned]
          simp only [Bool.not_true, Bool.false_eq_true, if_false, Plan.kind, Plan.children]
          rw [hall cs cs (childCtx k ctx) (fun _ h => h) rfl]
          · simp [withChildren]
          · intro i c c' h1 h2
            rw [childCtx_other hk]
            rw [h1] at h2
            cases h2
            rfl
          · intro i c ctx₁ hc ha
            exact ⟨hok.child hn hc ha, hlv.child hok hn hc ha⟩

/-! ### The rows -/

/-- As many partitions, and in task `ctx` the same rows in each. -/
def Same (ctx : TaskCtx) (a b : Ran Row) : Prop := a.parts = b.parts ∧ ∀ q, a.exec true ctx q = b.exec true ctx q

theorem Same.refl (ctx : TaskCtx) (a : Ran Row) : Same ctx a a := ⟨rfl, fun _ => rfl⟩

theorem Same.rows {ctx : TaskCtx} {a b : Ran Row} (h : Same ctx a b) : a.rows true ctx = b.rows true ctx := by
  unfold Ran.rows
  rw [h.1, funext h.2]

theorem unionExec_same {ctx : TaskCtx} : ∀ (as bs : List (Ran Row)) (_ : as.length = bs.length)
    (_ : ∀ (i : Nat) a b, as[i]? = some a → bs[i]? = some b → Same ctx a b) (q : Nat),
    unionExec true ctx as q = unionExec true ctx bs q
  | [], [], _, _, _ => rfl
  | a :: as, b :: bs, hl, h, q => by
    have h0 := h 0 a b rfl rfl
    unfold unionExec
    rw [h0.1, h0.2, unionExec_same as bs (by simpa using hl) (fun i a b h1 h2 => h (i + 1) a b h1 h2)]

theorem map_same {α β : Type} {f : α → β} : ∀ {as bs : List α} (_ : as.length = bs.length)
    (_ : ∀ (i : Nat) a b, as[i]? = some a → bs[i]? = some b → f a = f b), as.map f = bs.map f
  | [], [], _, _ => rfl
  | a :: as, b :: bs, hl, h => by
    rw [List.map_cons, List.map_cons, h 0 a b rfl rfl,
      map_same (as := as) (bs := bs) (by simpa using hl) (fun i a b h1 h2 => h (i + 1) a b h1 h2)]

theorem runKind_same {ctx : TaskCtx} {k : Kind Row} (hn : k.isNet = false) (hk : ∀ ws m, k ≠ .ciu ws m)
    {as bs : List (Ran Row × Ran Row)} (hl : as.length = bs.length)
    (h : ∀ (i : Nat) a b, as[i]? = some a → bs[i]? = some b → Same ctx a.1 b.1) :
    Same ctx (runKind k as) (runKind k bs) := by
  have hget : ∀ i : Nat, Same ctx (as.getD i (.none, .none)).1 (bs.getD i (.none, .none)).1 := by
    intro i
    by_cases hi : i < as.length
    · have h1 : as[i]? = some as[i] := List.getElem?_eq_getElem hi
      have h2 : bs[i]? = some (bs[i]'(hl ▸ hi)) := List.getElem?_eq_getElem (hl ▸ hi)
      have := h i _ _ h1 h2
      simpa [h1, h2] using this
    · have h1 : as[i]? = none := by simpa using hi
      have h2 : bs[i]? = none := by rw [hl] at hi; simpa using hi
      simp only [List.getD_eq_getElem?_getD, h1, h2]
      exact Same.refl _ _
  have h0 := hget 0
  have h1 := hget 1
  have hp : as.map (fun c => c.1.parts) = bs.map (fun c => c.1.parts) := map_same hl fun i a b e1 e2 => (h i a b e1 e2).1
  cases k with
  | leaf ps => exact Same.refl _ _
  | distLeaf o vs => exact Same.refl _ _
  | op g r =>
    refine ⟨h0.1, fun q => ?_⟩
    show g.exec true ctx q _ = g.exec true ctx q _
    congr 1
    exact map_same hl fun i a b e1 e2 => (h i a b e1 e2).2 q
  | join m s =>
    cases m
    case partitioned =>
      refine ⟨h0.1, fun q => ?_⟩
      show joinRows s _ _ = joinRows s _ _
      rw [h0.2, h1.2]
    all_goals
      refine ⟨h1.1, fun q => ?_⟩
      show collectExec s _ _ _ _ _ = collectExec s _ _ _ _ _
      unfold collectExec
      rw [h0.2, h1.2, h1.1, h1.rows]
  | union =>
    refine ⟨?_, fun q => ?_⟩
    · show (as.map (·.1.parts)).sum = (bs.map (·.1.parts)).sum
      rw [hp]
    · show unionExec true ctx (as.map (·.1)) q = unionExec true ctx (bs.map (·.1)) q
      refine unionExec_same _ _ (by simpa using hl) ?_ q
      intro i a b e1 e2
      simp only [List.getElem?_map, Option.map_eq_some_iff] at e1 e2
      obtain ⟨a, e1, rfl⟩ := e1
      obtain ⟨b, e2, rfl⟩ := e2
      exact h i a b e1 e2
  | ciu ws m => exact absurd rfl (hk ws m)
  | hashRepart f n =>
    refine ⟨rfl, fun q => ?_⟩
    show hashPart f n q _ = hashPart f n q _
    rw [h0.rows]
  | otherRepart n deal =>
    refine ⟨rfl, fun q => ?_⟩
    show deal _ q = deal _ q
    rw [h0.1, funext h0.2]
  | coalesce f =>
    refine ⟨rfl, fun q => ?_⟩
    show (if q = 0 then takeFetch f true ctx _ else []) = if q = 0 then takeFetch f true ctx _ else []
    rw [h0.rows]
  | spm f =>
    refine ⟨rfl, fun q => ?_⟩
    show (if q = 0 then takeFetch f true ctx _ else []) = if q = 0 then takeFetch f true ctx _ else []
    rw [h0.rows]
  | broadcast n =>
    refine ⟨?_, fun q => ?_⟩
    · show _ * n = _ * n
      rw [h0.1]
    · show Ran.exec _ true ctx (q % _) = Ran.exec _ true ctx (q % _)
      rw [h0.1, h0.2]
  | shuffle => cases hn
  | netCoalesce => cases hn
  | netBroadcast => cases hn

theorem execIn_mem : ∀ (es : List Union.Entry) (children : List Nat) (q : Nat) (r : Union.Run),
    Union.execIn children es q = .ok (some r) → (r.child, r.ctx) ∈ es
  | [], _, _, _, h => by simp [Union.execIn] at h
  | (c, x) :: es, children, q, r, h => by
    unfold Union.execIn at h
    split at h
    · cases h
    · split at h
      · cases h; simp
      · exact List.mem_cons_of_mem _ (execIn_mem es children _ r h)

theorem emptyLike_parts (p : Plan Row) : (run (emptyLike p)).parts = (run p).parts := by
  show (List.replicate p.parts []).length = p.parts
  simp

/-- A task gets the same rows from its share of a plan as from the plan. -/
theorem share_same : ∀ (p : Plan Row) (ctx : TaskCtx), CtxOk ctx p → LeavesOk ctx p → Same ctx (run (share ctx p)) (run p)
  | .node k tc cs, ctx, hok, hlv => by
    rcases isDistLeaf k with ⟨o, vs, rfl⟩ | hd
    · obtain ⟨rfl, hlt, P, hP⟩ := hlv ctx o vs tc cs .root
      have h1 : vs.getD ctx.index [] = vs[ctx.index] := by simp [hlt]
      have h2 : (vs.headD []).length = P := by
        cases vs with
        | nil => simp at hlt
        | cons v vs => exact hP v (by simp)
      refine ⟨?_, fun q => ?_⟩
      · show (vs.getD ctx.index []).length = (vs.headD []).length
        rw [h1, h2]
        exact hP _ (List.getElem_mem hlt)
      · show (vs.getD ctx.index []).getD q [] = if (true || ctx.count != 1) then (vs.getD ctx.index []).getD q []
          else o.getD q []
        simp
    · rw [share_node hd]
      cases hn : k.isNet with
      | true => exact Same.refl _ _
      | false =>
        simp only [Bool.false_eq_true, if_false]
        rw [run_node, run_node]
        have hpair : ∀ (i : Nat) c', (shareAll (childCtx k ctx) cs)[i]? = some c' →
            ∃ c, cs[i]? = some c ∧ c' = match childCtx k ctx i with
              | none => emptyLike c
              | some ctx₁ => share ctx₁ c := by
          intro i c' h
          rw [shareAll_eq, List.getElem?_mapIdx, Option.map_eq_some_iff] at h
          obtain ⟨c, h1, h2⟩ := h
          exact ⟨c, h1, h2.symm⟩
        have ih : ∀ (i : Nat) c ctx₁, cs[i]? = some c → childCtx k ctx i = some ctx₁ →
            Same ctx₁ (run (share ctx₁ c)) (run c) := by
          intro i c ctx₁ hc ha
          have := List.mem_of_getElem? hc
          exact share_same c ctx₁ (hok.child hn hc ha) (hlv.child hok hn hc ha)
        rcases isCiu k with ⟨ws, m, rfl⟩ | hk
        · obtain ⟨es, hes, hnd, hle⟩ := hok ctx ws m tc cs .root
          have hp : ((shareAll (childCtx (Row := Row) (.ciu ws m) ctx) cs).map runBoth).map (fun c => c.1.parts)
              = (cs.map runBoth).map (fun c => c.1.parts) := by
            rw [List.map_map, List.map_map]
            apply map_same (shareAll_length ..)
            intro i c' c h1 h2
            obtain ⟨c2, h3, rfl⟩ := hpair i c' h1
            rw [h2] at h3
            cases h3
            show (run _).parts = (run c).parts
            cases ha : childCtx (Row := Row) (.ciu ws m) ctx i with
            | none => exact emptyLike_parts c
            | some ctx₁ => exact (ih i c ctx₁ h2 ha).1
          refine ⟨?_, fun q => ?_⟩
          · show ciuParts m _ = ciuParts m _
            rw [hp]
          · show ciuExec true (((shareAll (childCtx (Row := Row) (.ciu ws m) ctx) cs).map runBoth).map (·.1)) (m.getD ctx.index []) q
              = ciuExec true ((cs.map runBoth).map (·.1)) (m.getD ctx.index []) q
            rw [getD_eq hes]
            unfold ciuExec
            have hp' : (((shareAll (childCtx (Row := Row) (.ciu ws m) ctx) cs).map runBoth).map (·.1)).map (·.parts)
                = ((cs.map runBoth).map (·.1)).map (·.parts) := by
              rw [List.map_map, List.map_map (l := List.map runBoth cs)]
              exact hp
            rw [hp']
            cases hx : Union.execIn (((cs.map runBoth).map (·.1)).map (·.parts)) es q with
            | error e => rfl
            | ok o =>
              cases o with
              | none => rfl
              | some r =>
                have hmem := execIn_mem es _ q r hx
                have hlt := hle _ hmem
                have hc : cs[r.child]? = some cs[r.child] := List.getElem?_eq_getElem hlt
                have ha := (childCtx_iff (ws := ws) (Row := Row) hes hnd r.child r.ctx).mpr hmem
                have hsame := ih r.child _ r.ctx hc ha
                show Ran.exec (((List.map runBoth (shareAll (childCtx (Row := Row) (.ciu ws m) ctx) cs)).map (·.1)).getD r.child .none) true r.ctx r.partition
                  = Ran.exec (((List.map runBoth cs).map (·.1)).getD r.child .none) true r.ctx r.partition
                have e1 : (((cs.map runBoth).map (·.1)).getD r.child .none) = run cs[r.child] := by
                  simp [hc, run]
                have e2 : ((((shareAll (childCtx (Row := Row) (.ciu ws m) ctx) cs).map runBoth).map (·.1)).getD r.child .none)
                    = run (share r.ctx cs[r.child]) := by
                  rw [shareAll_eq]
                  simp [List.getElem?_mapIdx, hc, run, ha]
                rw [e1, e2]
                exact hsame.2 _
        · apply runKind_same hn hk
          · simp [shareAll_length]
          · intro i a b h1 h2
            simp only [List.getElem?_map, Option.map_eq_some_iff] at h1 h2
            obtain ⟨c', h1, rfl⟩ := h1
            obtain ⟨c, h2, rfl⟩ := h2
            obtain ⟨c2, h3, rfl⟩ := hpair i c' h1
            rw [h2] at h3
            cases h3
            have ha := childCtx_other hk ctx i
            rw [ha]
            exact ih i c ctx h2 ha
termination_by p => sizeOf p
decreasing_by all_goals (have := List.sizeOf_lt_of_mem ‹_ ∈ cs›; simp_wf; omega)

end DD.Tree.Rec
