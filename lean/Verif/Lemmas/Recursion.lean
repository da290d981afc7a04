/-
The stack-based traversals of `Model/Recursion` do what the recursive ones of `Spec/Recursion` do.
-/
import Verif.Spec.Recursion
import Verif.Lemmas.PlanShape

namespace DD.Tree.Rec

open DD.Tree

variable {Row S A : Type}

/-- A stack machine's result agrees with a result without a stack; unless it stopped, its stack is `stk`. -/
def Sim (stk : List A) (x : M (Tr Row × List A × S)) (y : M (Tr Row × S)) : Prop :=
  match y with
  | .error e => x = .error e
  | .ok (r, s) => ∃ stk', x = .ok (r, stk', s) ∧ (r.tnr = .stop ∨ (r.tnr = .cont ∧ stk' = stk))

/-- Likewise for the children. -/
def SimAll (stk : List A) (x : M (List (Plan Row) × Tnr × List A × S)) (y : M (List (Plan Row) × Bool × S)) : Prop :=
  match y with
  | .error e => x = .error e
  | .ok (cs, stopped, s) => ∃ stk', x = .ok (cs, (if stopped then .stop else .cont), stk', s) ∧ (stopped = false → stk' = stk)

theorem Sim.map {stk : List A} {x : M (Tr Row × List A × S)} {y : M (Tr Row × S)} (h : Sim stk x y) :
    x.map (fun r => (r.1, r.2.2)) = y := by
  unfold Sim at h
  split at h
  · rw [h]; rfl
  · obtain ⟨_, h, _⟩ := h
    rw [h]; rfl

theorem range_succ_map {B : Type} (g : Nat → B) (n : Nat) :
    (List.range (n + 1)).map g = g 0 :: (List.range n).map fun i => g (i + 1) := by
  rw [List.range_succ_eq_map]; simp

theorem mapUntilStop_stop (F : Plan Row → S → M (Tr Row × S)) (cs : List (Plan Row)) (s : S) :
    mapUntilStop F cs .stop s = .ok (cs, .stop, s) := by
  cases cs <;> simp [mapUntilStop]

theorem map_consume (F : Plan Row → List A × S → M (Tr Row × List A × S)) (g : Plan Row → A → S → M (Tr Row × S))
    (stk : List A) : ∀ (cs : List (Plan Row)) (arg : Nat → A) (s : S),
    (∀ c ∈ cs, ∀ a stk s, Sim stk (F c (a :: stk, s)) (g c a s)) →
    SimAll stk (mapUntilStop F cs .cont ((List.range cs.length).map arg ++ stk, s)) (eachUntilStop g arg s cs)
  | [], arg, s, _ => by simp [eachUntilStop, mapUntilStop, SimAll]
  | c :: cs, arg, s, h => by
    have hc := h c (by simp) (arg 0) ((List.range cs.length).map (fun i => arg (i + 1)) ++ stk) s
    rw [List.length_cons, range_succ_map, List.cons_append]
    unfold eachUntilStop mapUntilStop
    rw [if_neg (by simp)]
    cases hg : g c (arg 0) s with
    | error e =>
      rw [hg] at hc
      have hc : F c _ = _ := hc
      rw [hc]
      rfl
    | ok v =>
      obtain ⟨r, s'⟩ := v
      rw [hg] at hc
      obtain ⟨stk', hF, hr⟩ := hc
      rw [hF]
      rcases hr with hr | ⟨hr, rfl⟩
      · show SimAll stk (do let (cs, tnr, s) ← mapUntilStop F cs r.tnr _; _) (if r.tnr = .stop then _ else _)
        rw [if_pos hr, hr, mapUntilStop_stop]
        exact ⟨stk', rfl, by simp⟩
      · show SimAll stk (do let (cs, tnr, s) ← mapUntilStop F cs r.tnr _; _) (if r.tnr = .stop then _ else _)
        rw [if_neg (by simp [hr]), hr]
        have ih := map_consume F g stk cs (fun i => arg (i + 1)) s' (fun c hc => h c (by simp [hc]))
        cases he : eachUntilStop g (fun i => arg (i + 1)) s' cs with
        | error e =>
          rw [he] at ih
          have ih : mapUntilStop F cs _ _ = _ := ih
          rw [ih]; rfl
        | ok v =>
          obtain ⟨cs', st, s''⟩ := v
          rw [he] at ih
          obtain ⟨stk', e, hs⟩ := ih
          rw [e]
          exact ⟨stk', rfl, hs⟩

theorem pushCounts_eq (p : Plan Row) (t : Nat) :
    pushCounts p t = (List.range p.children.length).map (childCount p.kind t) := childCounts_eq _ _ _

/-! ### Top-down, with task counts -/

theorem down_sim (f : Plan Row → Nat → S → M (Tr Row × S)) : ∀ (n : Nat) (p : Plan Row) (t : Nat) (stk : List Nat) (s : S),
    Sim stk (transformDownUp (downEnter f) (fun p s => .ok (⟨p, .cont⟩, s)) n p (t :: stk, s)) (down f n p t s)
  | 0, _, _, _, _ => rfl
  | n + 1, p, t, stk, s => by
    unfold transformDownUp down
    rw [show downEnter f p (t :: stk, s) = (do
      let (r, s) ← f p t s
      if r.tnr = .cont then .ok (r, pushCounts r.data t ++ stk, s) else .ok (r, stk, s)) from rfl]
    cases hf : f p t s with
    | error e => rfl
    | ok v =>
      obtain ⟨⟨q, tnr⟩, s'⟩ := v
      cases tnr with
      | stop => exact ⟨stk, rfl, .inl rfl⟩
      | jump => exact ⟨stk, rfl, .inr ⟨rfl, rfl⟩⟩
      | cont =>
        have := map_consume _ (down f n) stk q.children (childCount q.kind t) s'
          (fun c _ a stk s => down_sim f n c a stk s)
        rw [← pushCounts_eq] at this
        show Sim stk (do let (cs, tnr, s) ← mapUntilStop _ q.children .cont (pushCounts q t ++ stk, s'); _)
          (do let (cs, stopped, s) ← eachUntilStop (down f n) (childCount q.kind t) s' q.children; _)
        cases he : eachUntilStop (down f n) (childCount q.kind t) s' q.children with
        | error e =>
          rw [he] at this
          have this : mapUntilStop _ _ _ _ = _ := this
          rw [this]; rfl
        | ok v =>
          obtain ⟨cs', st, s''⟩ := v
          rw [he] at this
          obtain ⟨stk', e, hs⟩ := this
          rw [e]
          cases st with
          | true => exact ⟨stk', rfl, .inl rfl⟩
          | false => exact ⟨stk', rfl, .inr ⟨rfl, hs rfl⟩⟩

/-! ### Bottom-up, with task counts -/

theorem upAll_eq (f : Plan Row → Nat → S → M (Tr Row × S)) : ∀ (cs : List (Plan Row)) (count : Nat → Nat) (s : S),
    upAll f count s cs = eachUntilStop (fun c T s => up f T s c) count s cs
  | [], _, _ => by simp [upAll, eachUntilStop]
  | c :: cs, count, s => by simp only [upAll, eachUntilStop, upAll_eq f cs]

/- Longest path of a plan. -/
mutual
def depth : Plan Row → Nat
  | .node _ _ cs => depthAll cs + 1
def depthAll : List (Plan Row) → Nat
  | [] => 0
  | c :: cs => max (depth c) (depthAll cs)
end

theorem depth_le : ∀ {cs : List (Plan Row)} {c}, c ∈ cs → depth c ≤ depthAll cs
  | c :: cs, c', h => by
    rw [depthAll]
    rcases List.mem_cons.mp h with rfl | h
    · exact Nat.le_max_left ..
    · exact Nat.le_trans (depth_le h) (Nat.le_max_right ..)

theorem up_sim (f : Plan Row → Nat → S → M (Tr Row × S)) (hf : ∀ p t s r s', f p t s = .ok (r, s') → r.tnr ≠ .jump) :
    ∀ (n : Nat) (p : Plan Row) (t : Nat) (stk : List Nat) (s : S), depth p ≤ n →
    Sim stk (transformDownUp upEnter (upLeave f) n p (t :: stk, s)) (up f t s p)
  | 0, .node _ _ _, _, _, _, h => by simp [depth] at h
  | n + 1, .node k tc cs, t, stk, s, h => by
    unfold transformDownUp up
    rw [upAll_eq]
    have := map_consume (transformDownUp upEnter (upLeave f) n) (fun c T s => up f T s c) (t :: stk) cs (childCount k t) s
      (fun c hc a stk s => up_sim f hf n c a stk s (by
        have := depth_le hc
        simp only [depth] at h
        omega))
    have hpc := pushCounts_eq (.node k tc cs) t
    rw [show (List.range cs.length).map (childCount k t) = pushCounts (.node k tc cs) t from hpc.symm] at this
    show Sim stk (do let (cs, tnr, s) ← mapUntilStop _ cs .cont (pushCounts (.node k tc cs) t ++ t :: stk, s); _) _
    cases he : eachUntilStop (fun c T s => up f T s c) (childCount k t) s cs with
    | error e =>
      rw [he] at this
      have this : mapUntilStop _ _ _ _ = _ := this
      rw [this]; rfl
    | ok v =>
      obtain ⟨cs', st, s''⟩ := v
      rw [he] at this
      obtain ⟨stk', e, hs⟩ := this
      rw [e]
      cases st with
      | true => exact ⟨stk', rfl, .inl rfl⟩
      | false =>
        rw [hs rfl]
        show Sim stk (do let (r, s) ← f (.node k tc cs') t s''; _) (f (.node k tc cs') t s'')
        cases hv : f (.node k tc cs') t s'' with
        | error e => rfl
        | ok v =>
          obtain ⟨r, s3⟩ := v
          refine ⟨stk, rfl, ?_⟩
          have := hf _ _ _ _ _ hv
          cases ht : r.tnr
          · exact .inr ⟨rfl, rfl⟩
          · exact absurd ht this
          · exact .inl rfl

/-! ### Top-down, with task contexts -/

theorem setCtx_fold : ∀ (es : List Union.Entry) (l : List (Option TaskCtx)), (∀ e ∈ es, e.1 < l.length) →
    es.foldl setCtx (.ok l) = .ok ((List.range l.length).map fun i =>
      match (es.filter fun e => e.1 == i).getLast? with
      | some e => some e.2
      | none => l.getD i none)
  | [], l, _ => by
    simp only [List.foldl_nil, List.filter_nil, List.getLast?_nil]
    congr 1
    apply List.ext_getElem
    · simp
    · intro i h1 h2
      simp [List.getElem?_eq_getElem h1]
  | e :: es, l, h => by
    have he : e.1 < l.length := h e (by simp)
    rw [List.foldl_cons]
    have hset : setCtx (.ok l) e = .ok (l.set e.1 (some e.2)) := by
      show (if e.1 < l.length then _ else _) = _
      rw [if_pos he]
    rw [hset, setCtx_fold es _ (fun e' h' => by simpa using h e' (by simp [h']))]
    congr 1
    rw [List.length_set]
    apply List.map_congr_left
    intro i hi
    simp only [List.filter_cons]
    by_cases hei : e.1 = i
    · subst hei
      simp only [beq_self_eq_true, if_true, List.getLast?_cons]
      cases (es.filter fun e' => e'.1 == e.1).getLast? with
      | none => simp [he]
      | some e' => simp
    · have : (e.1 == i) = false := by simpa using hei
      simp only [this]
      cases hg : (es.filter fun e' => e'.1 == i).getLast? with
      | none => simp [List.getD_eq_getElem?_getD, List.getElem?_set_ne hei, hg]
      | some e' => simp [hg]

theorem setCtx_error : ∀ (es : List Union.Entry) (e), es.foldl setCtx (.error e) = .error e
  | [], _ => rfl
  | _ :: es, e => setCtx_error es e

theorem setCtx_bad : ∀ (es : List Union.Entry) (l : List (Option TaskCtx)), (¬ ∀ e ∈ es, e.1 < l.length) →
    es.foldl setCtx (.ok l) = .error (some (.panic "index out of bounds"))
  | [], l, h => by simp at h
  | e :: es, l, h => by
    rw [List.foldl_cons]
    by_cases he : e.1 < l.length
    · have hset : setCtx (.ok l) e = .ok (l.set e.1 (some e.2)) := by
        show (if e.1 < l.length then _ else _) = _
        rw [if_pos he]
      rw [hset]
      apply setCtx_bad
      simp only [List.length_set]
      intro h'
      exact h (fun e' he' => by
        rcases List.mem_cons.mp he' with rfl | h''
        · exact he
        · exact h' e' h'')
    · have hset : setCtx (.ok l) e = .error (some (.panic "index out of bounds")) := by
        show (if e.1 < l.length then _ else _) = _
        rw [if_neg he]
      rw [hset, setCtx_error]

theorem pushCtxs_eq (p : Plan Row) (ctx : TaskCtx) :
    pushCtxs p ctx = if assigned p ctx then .ok ((List.range p.children.length).map (childCtx p.kind ctx))
      else .error (some (.panic "index out of bounds")) := by
  obtain ⟨k, tc, cs⟩ := p
  have hsame : (List.replicate cs.length (some ctx)) = (List.range cs.length).map fun _ => some ctx := by
    simp
  cases k
  case ciu ws m =>
    cases hm : m[ctx.index]? with
    | none =>
      have hb : assigned (.node (.ciu ws m) tc cs) ctx = false := by
        have : ¬ ctx.index < m.length := by simpa using hm
        simp [assigned, Plan.kind, this]
      rw [hb]
      show (match m[ctx.index]? with | none => _ | some es => _) = _
      rw [hm]; rfl
    | some es =>
      have hlt : ctx.index < m.length := (List.getElem?_eq_some_iff.mp hm).1
      have hd : m.getD ctx.index [] = es := by simp [hm]
      have hl : pushCtxs (.node (.ciu ws m) tc cs) ctx = es.foldl setCtx (.ok (List.replicate cs.length none)) := by
        show (match m[ctx.index]? with | none => _ | some es => _) = _
        rw [hm]; rfl
      rw [hl]
      by_cases hall : ∀ e ∈ es, e.1 < cs.length
      · have : assigned (.node (.ciu ws m) tc cs) ctx = true := by
          simp only [assigned, Plan.kind, Plan.children, hd, Bool.and_eq_true, decide_eq_true_eq, List.all_eq_true]
          exact ⟨hlt, fun e he => decide_eq_true (hall e he)⟩
        rw [this, if_pos rfl]
        rw [setCtx_fold es _ (by simpa using fun a b h => hall (a, b) h)]
        congr 1
        simp only [List.length_replicate, Plan.children]
        apply List.map_congr_left
        intro i hi
        simp only [childCtx, Plan.kind, hd]
        cases (es.filter fun e => e.1 == i).getLast? <;> simp
        simp at hi
        simp [hi]
      · have : assigned (.node (.ciu ws m) tc cs) ctx = false := by
          rw [← Bool.not_eq_true]
          simp only [assigned, Plan.kind, Plan.children, hd, Bool.and_eq_true, decide_eq_true_eq, List.all_eq_true]
          exact fun h => hall fun e he => of_decide_eq_true (h.2 e he)
        rw [this]
        exact setCtx_bad es _ (by simpa using hall)
  all_goals
    show Except.ok (List.replicate cs.length (some ctx)) = .ok _
    rw [hsame]
    rfl

theorem downIn_sim (f : Plan Row → TaskCtx → S → M (Tr Row × S)) :
    ∀ (n : Nat) (p : Plan Row) (ctx : Option TaskCtx) (stk : List (Option TaskCtx)) (s : S),
    Sim stk (transformDown (ctxEnter f) n p (ctx :: stk, s)) (downIn f n p ctx s)
  | 0, _, _, _, _ => rfl
  | n + 1, p, none, stk, s => ⟨stk, rfl, .inr ⟨rfl, rfl⟩⟩
  | n + 1, p, some ctx, stk, s => by
    unfold transformDown downIn
    rw [show ctxEnter f p (some ctx :: stk, s) = (do
      let (r, s) ← f p ctx s
      if r.tnr = .stop then .ok (r, stk, s)
      else if r.tnr ≠ .cont ∨ r.data.kind.isNet = true then .ok (⟨r.data, .jump⟩, stk, s)
      else do
        let ctxs ← pushCtxs r.data ctx
        .ok (r, ctxs ++ stk, s)) from rfl]
    cases hf : f p ctx s with
    | error e => rfl
    | ok v =>
      obtain ⟨⟨q, tnr⟩, s'⟩ := v
      cases tnr with
      | stop => exact ⟨stk, rfl, .inl rfl⟩
      | jump => exact ⟨stk, rfl, .inr ⟨rfl, rfl⟩⟩
      | cont =>
        simp only [bind, Except.bind, ne_eq, reduceCtorEq, not_true, false_or, if_false]
        cases hn : q.kind.isNet with
        | true => exact ⟨stk, rfl, .inr ⟨rfl, rfl⟩⟩
        | false =>
          rw [pushCtxs_eq]
          cases ha : assigned q ctx with
          | false => rfl
          | true =>
            simp only [if_true, Bool.not_true, Bool.false_eq_true, if_false]
            have := map_consume _ (downIn f n) stk q.children (childCtx q.kind ctx) s'
              (fun c _ a stk s => downIn_sim f n c a stk s)
            cases he : eachUntilStop (downIn f n) (childCtx q.kind ctx) s' q.children with
            | error e =>
              rw [he] at this
              have this : mapUntilStop _ _ _ _ = _ := this
              rw [this]; rfl
            | ok v =>
              obtain ⟨cs', st, s''⟩ := v
              rw [he] at this
              obtain ⟨stk', e, hs⟩ := this
              rw [e]
              cases st with
              | true => exact ⟨stk', rfl, .inl rfl⟩
              | false => exact ⟨stk', rfl, .inr ⟨rfl, hs rfl⟩⟩

end DD.Tree.Rec
