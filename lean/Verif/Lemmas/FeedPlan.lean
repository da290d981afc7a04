/-
What a stage's tasks run all together, and the traversals that declare and open feeds.
-/
import Verif.Model.FeedPlan
import Verif.Spec.FeedPlan
import Verif.Props.Specialise

namespace DD.Tree.Rec

open DD.Tree

variable {Row : Type}

/-- The isolated unions of a stage run with `T` tasks are assigned to those tasks, every task of every branch once. -/
def UnionsOk (T : Nat) (p : Plan Row) : Prop :=
  ∀ t x, (t, x) ∈ stageNodes T p → ∀ ws m, x.kind = .ciu ws m →
    m.length = t ∧ Union.OncePerTask m ∧ ∃ k, Union.RunsAll x.children.length k m

theorem mem_stageNodesAll {count : Nat → Nat} {t : Nat} {x : Plan Row} : ∀ {cs : List (Plan Row)},
    (t, x) ∈ stageNodesAll count cs ↔ ∃ i c, cs[i]? = some c ∧ (t, x) ∈ stageNodes (count i) c := by
  intro cs
  induction cs generalizing count with
  | nil => simp [stageNodesAll]
  | cons c cs ih =>
    unfold stageNodesAll
    rw [List.mem_append, ih]
    constructor
    · rintro (h | ⟨i, c', h1, h2⟩)
      · exact ⟨0, c, rfl, h⟩
      · exact ⟨i + 1, c', h1, h2⟩
    · rintro ⟨i, c', h1, h2⟩
      cases i with
      | zero => cases h1; exact .inl h2
      | succ i => exact .inr ⟨i, c', h1, h2⟩

theorem UnionsOk.child {T : Nat} {k : Kind Row} {tc cs} (h : UnionsOk T (.node k tc cs)) (hn : k.isNet = false)
    {i : Nat} {c : Plan Row} (hc : cs[i]? = some c) : UnionsOk (childCount k T i) c := by
  intro t x hx
  refine h t x ?_
  unfold stageNodes
  rw [hn]
  exact List.mem_cons_of_mem _ (mem_stageNodesAll.mpr ⟨i, c, hc, hx⟩)

theorem stageNodesAll_eq (count : Nat → Nat) : ∀ cs : List (Plan Row),
    stageNodesAll count cs = (List.range cs.length).flatMap fun i => match cs[i]? with
      | none => []
      | some c => stageNodes (count i) c
  | [] => by simp [stageNodesAll]
  | c :: cs => by
    rw [List.length_cons, List.range_succ_eq_map, List.flatMap_cons, List.flatMap_map]
    unfold stageNodesAll
    rw [stageNodesAll_eq _ cs]
    rfl

theorem flatMap_congr_perm {α β : Type} {f g : α → List β} : ∀ {l : List α}, (∀ a ∈ l, (f a).Perm (g a)) →
    (l.flatMap f).Perm (l.flatMap g)
  | [], _ => .refl _
  | a :: l, h => by
    rw [List.flatMap_cons, List.flatMap_cons]
    exact (h a (by simp)).append (flatMap_congr_perm fun b hb => h b (by simp [hb]))

theorem flatMap_cons_perm {α β : Type} (f : α → β) (g : α → List β) : ∀ l : List α,
    (l.flatMap fun a => f a :: g a).Perm (l.map f ++ l.flatMap g)
  | [] => .refl _
  | a :: l => by
    rw [List.flatMap_cons, List.map_cons, List.flatMap_cons, List.cons_append, List.cons_append]
    refine .cons _ ?_
    refine (List.Perm.append_left _ (flatMap_cons_perm f g l)).trans ?_
    rw [← List.append_assoc, ← List.append_assoc]
    exact List.perm_append_comm.append_right _

/-- All tasks together run every node of the stage, in each of its tasks exactly once. -/
theorem stage_covered : ∀ (p : Plan Row) (T : Nat), UnionsOk T p →
    ((contexts T).flatMap fun ctx => preorderIn ctx p).Perm (stageRuns T p)
  | .node k tc cs, T, h => by
    have hrec : ∀ c ∈ cs, ∀ T, UnionsOk T c → ((contexts T).flatMap fun ctx => preorderIn ctx c).Perm (stageRuns T c) := by
      intro c hc T hT
      have : sizeOf c < sizeOf cs := List.sizeOf_lt_of_mem hc
      exact stage_covered c T hT
    have hhead : ((contexts T).flatMap fun ctx => preorderIn ctx (.node k tc cs)).Perm
        ((contexts T).map (fun ctx => (ctx, Plan.node k tc cs))
          ++ (contexts T).flatMap fun ctx => if k.isNet then [] else preorderInAll (childCtx k ctx) cs) := by
      refine .trans (.of_eq ?_) (flatMap_cons_perm (fun ctx => (ctx, Plan.node k tc cs)) _ _)
      congr 1
    refine hhead.trans ?_
    unfold stageRuns
    rw [stageNodes, List.flatMap_cons]
    refine List.Perm.append_left _ ?_
    cases hn : k.isNet with
    | true => simp
    | false =>
      simp only [Bool.false_eq_true, if_false]
      rw [stageNodesAll_eq, List.flatMap_assoc]
      have hgoal : ((contexts T).flatMap fun ctx => preorderInAll (childCtx k ctx) cs).Perm
          ((List.range cs.length).flatMap fun i => (contexts (childCount k T i)).flatMap fun ctx => belowOf cs (i, ctx)) := by
        rcases isCiu k with ⟨ws, m, rfl⟩ | hk
        · obtain ⟨hlen, honce, kk, hr⟩ := h T _ (by rw [stageNodes]; exact List.mem_cons_self) ws m rfl
          have hent : ∀ es ∈ m, ∀ e ∈ es, e.1 < cs.length := fun es hes e he =>
            (Union.mem_childTasks.mp (hr.2.mem_iff.mp (List.mem_flatten.mpr ⟨es, hes, he⟩))).1
          have h1 : ((contexts T).flatMap fun ctx => preorderInAll (childCtx (Row := Row) (.ciu ws m) ctx) cs).Perm
              ((contexts T).flatMap fun ctx => (m.getD ctx.index []).flatMap (belowOf cs)) := by
            refine flatMap_congr_perm fun ctx hctx => ?_
            simp only [contexts, List.mem_map, List.mem_range] at hctx
            obtain ⟨i, hi, rfl⟩ := hctx
            have hget : m[i]? = some (m[i]'(hlen ▸ hi)) := List.getElem?_eq_getElem _
            have hmem : m[i]'(hlen ▸ hi) ∈ m := List.getElem_mem _
            have := entries_perm cs _ (honce _ hmem) (hent _ hmem) (ws := ws) (ctx := ⟨i, T⟩) hget
            rw [getD_eq (m := m) (i := i) hget]
            exact this.symm
          refine h1.trans ?_
          have h2 : ((contexts T).flatMap fun ctx => (m.getD ctx.index []).flatMap (belowOf cs))
              = m.flatten.flatMap (belowOf cs) := by
            rw [contexts, List.flatMap_map, ← hlen, Union.flatMap_range_getD m (fun es => es.flatMap (belowOf cs)),
              Union.flatten_flatMap]
          rw [h2]
          refine (hr.2.flatMap_right _).trans (.of_eq ?_)
          unfold Union.childTasks
          rw [List.flatMap_assoc]
          refine List.flatMap_congr fun i hi => ?_
          have : childCount (Row := Row) (.ciu ws m) T i = kk i := unionCount_eq hr (List.mem_range.mp hi)
          rw [this, contexts, List.flatMap_map, List.flatMap_map]
        · have h1 : ((contexts T).flatMap fun ctx => preorderInAll (childCtx k ctx) cs)
              = (contexts T).flatMap fun ctx => (List.range cs.length).flatMap fun i => belowOf cs (i, ctx) := by
            refine List.flatMap_congr fun ctx _ => ?_
            rw [preorderInAll_eq]
            refine List.flatMap_congr fun i _ => ?_
            rw [childCtx_other hk]
          rw [h1]
          refine (flatMap_swap_perm _ _ _).trans (.of_eq ?_)
          refine List.flatMap_congr fun i _ => ?_
          rw [childCount_same hn hk]
      refine hgoal.trans (flatMap_congr_perm fun i hi => ?_)
      have hlt := List.mem_range.mp hi
      have hget : cs[i]? = some cs[i] := List.getElem?_eq_getElem hlt
      simp only [belowOf, hget]
      exact hrec _ (List.getElem_mem hlt) _ (h.child hn hget)
termination_by p => sizeOf p

/-! ### Declaring the feeds of a task -/

theorem shareFed_node {fed : Plan Row → Bool} {k : Kind Row} (hk : ∀ o vs, k ≠ .distLeaf o vs) (ctx : TaskCtx) (tc)
    (cs : List (Plan Row)) :
    shareFed fed ctx (.node k tc cs) = .node k tc (if k.isNet then cs else shareFedAll fed (childCtx k ctx) cs) := by
  unfold shareFed
  cases k
  case distLeaf o vs => exact absurd rfl (hk o vs)
  all_goals rfl

/-- What feeds have to be like: a node with a feed is not one of the library's isolated unions, and survives its codec. -/
def FeedsOk (reg : List (Getter Row)) (rt : Plan Row → M (Plan Row)) (ctx : TaskCtx) (p : Plan Row) : Prop :=
  ∀ ctx' x id, CtxAt ctx p ctx' x → getFeed reg x = some id → rt x = .ok x ∧ ∀ ws m, x.kind ≠ .ciu ws m

theorem FeedsOk.child {reg : List (Getter Row)} {rt} {ctx : TaskCtx} {k : Kind Row} {tc cs}
    (h : FeedsOk reg rt ctx (.node k tc cs)) (hok : CtxOk ctx (.node k tc cs)) (hn : k.isNet = false)
    {i : Nat} {c : Plan Row} (hc : cs[i]? = some c) {ctx₁} (h1 : childCtx k ctx i = some ctx₁) : FeedsOk reg rt ctx₁ c := by
  intro ctx' x id hat
  rcases isCiu k with ⟨ws', m', rfl⟩ | hk
  · obtain ⟨es, hes, _⟩ := hok ctx ws' m' tc cs .root
    have := childCtx_mem h1
    rw [getD_eq hes] at this
    exact h _ _ _ (.branch hes this hc hat)
  · rw [childCtx_other hk] at h1
    cases h1
    exact h _ _ _ (.child hn hk hc hat)

/-- The declaration of a node. -/
def declOf (reg : List (Getter Row)) (v : TaskCtx × Plan Row) : Option Decl := (getFeed reg v.2).map fun id => (id, v.2.parts)

theorem downIn_declare (reg : List (Getter Row)) (rt : Plan Row → M (Plan Row)) :
    ∀ (fuel : Nat) (p : Plan Row) (ctx : TaskCtx) (ds : List Decl), depth p ≤ fuel → CtxOk ctx p → LeavesOk ctx p →
      FeedsOk reg rt ctx p →
    downIn (declareNode reg rt) fuel p (some ctx) ds
      = .ok (⟨shareFed (fun x => (getFeed reg x).isSome) ctx p, .cont⟩, ds ++ (preorderIn ctx p).filterMap (declOf reg))
  | 0, .node _ _ _, _, _, h, _, _, _ => by simp [depth] at h
  | n + 1, .node k tc cs, ctx, ds, h, hok, hlv, hfd => by
    have hdepth : ∀ c ∈ cs, depth c ≤ n := fun c hc => by
      have := depth_le hc
      simp only [depth] at h; omega
    have hpos : ∀ c ∈ cs, ∃ n', n = n' + 1 := fun c hc => ⟨n - 1, by
      have := hdepth c hc
      cases c; simp [depth] at this; omega⟩
    have hall : ∀ (l l' : List (Plan Row)) (arg : Nat → Option TaskCtx) (ds : List Decl), (∀ c ∈ l, c ∈ cs) →
        l'.length = l.length →
        (∀ (i : Nat) c c', l[i]? = some c → l'[i]? = some c' → c' = match arg i with
          | none => emptyLike c
          | some _ => c) →
        (∀ (i : Nat) c ctx₁, l[i]? = some c → arg i = some ctx₁ → CtxOk ctx₁ c ∧ LeavesOk ctx₁ c ∧ FeedsOk reg rt ctx₁ c) →
        eachUntilStop (downIn (declareNode reg rt) n) arg ds l'
          = .ok (shareFedAll (fun x => (getFeed reg x).isSome) arg l, false,
              ds ++ (preorderInAll arg l).filterMap (declOf reg)) := by
      intro l
      induction l with
      | nil =>
        intro l' arg ds _ hl _ _
        rw [List.length_eq_zero_iff.mp hl]
        simp [eachUntilStop, shareFedAll, preorderInAll]
      | cons c l ih =>
        intro l' arg ds hsub hl heq hok
        cases l' with
        | nil => simp at hl
        | cons c' l' =>
          have hrest := fun ds => ih l' (fun i => arg (i + 1)) ds (fun c hc => hsub c (by simp [hc])) (by simpa using hl)
            (fun i c c' h1 h2 => heq (i + 1) c c' h1 h2) (fun i c ctx₁ hc ha => hok (i + 1) c ctx₁ hc ha)
          have h0 := heq 0 c c' rfl rfl
          unfold eachUntilStop shareFedAll preorderInAll
          cases ha : arg 0 with
          | none =>
            rw [ha] at h0
            obtain ⟨n', rfl⟩ := hpos c (hsub c (by simp))
            simp only [downIn, bind, Except.bind, reduceCtorEq, if_false]
            rw [hrest, h0]
            simp
          | some ctx₁ =>
            rw [ha] at h0
            subst h0
            obtain ⟨o1, o2, o3⟩ := hok 0 _ ctx₁ rfl ha
            rw [downIn_declare reg rt n _ ctx₁ ds (hdepth _ (hsub _ (by simp))) o1 o2 o3]
            simp only [bind, Except.bind, reduceCtorEq, if_false]
            rw [hrest]
            simp
    -- a node that is kept: its children follow
    have keep : ∀ (ds' : List Decl), (∀ ws m, k ≠ .ciu ws m) → (∀ o vs, k ≠ .distLeaf o vs) →
        declareNode reg rt (.node k tc cs) ctx ds = .ok (⟨.node k tc cs, .cont⟩, ds') →
        ds' = ds ++ ([(ctx, Plan.node k tc cs)].filterMap (declOf reg)) →
        downIn (declareNode reg rt) (n + 1) (.node k tc cs) (some ctx) ds
          = .ok (⟨shareFed (fun x => (getFeed reg x).isSome) ctx (.node k tc cs), .cont⟩,
              ds ++ (preorderIn ctx (.node k tc cs)).filterMap (declOf reg)) := by
      intro ds' hk hd he hds
      rw [shareFed_node hd]
      have hpre : ds ++ (preorderIn ctx (.node k tc cs)).filterMap (declOf reg)
          = ds' ++ (if k.isNet then [] else (preorderInAll (childCtx k ctx) cs).filterMap (declOf reg)) := by
        rw [hds, preorderIn, List.append_assoc]
        congr 1
        rw [← List.singleton_append, List.filterMap_append]
        congr 1
        cases k.isNet <;> simp
      rw [hpre]
      unfold downIn
      rw [he]
      simp only [bind, Except.bind]
      cases hn : k.isNet with
      | true =>
        rw [if_pos (show (Plan.node k tc cs).kind.isNet = true from hn)]
        simp
      | false =>
        rw [if_neg (show ¬ (Plan.node k tc cs).kind.isNet = true by simp [Plan.kind, hn]), hok.assigned]
        simp only [Bool.not_true, Bool.false_eq_true, if_false, Plan.kind, Plan.children]
        rw [hall cs cs (childCtx k ctx) ds' (fun _ h => h) rfl]
        · simp [withChildren]
        · intro i c c' h1 h2
          rw [childCtx_other hk]
          rw [h1] at h2
          cases h2
          rfl
        · intro i c ctx₁ hc ha
          exact ⟨hok.child hn hc ha, hlv.child hok hn hc ha, hfd.child hok hn hc ha⟩
    cases hg : getFeed reg (.node k tc cs) with
    | some id =>
      obtain ⟨hrt, hk⟩ := hfd ctx _ id .root hg
      have he : declareNode reg rt (.node k tc cs) ctx ds = .ok (⟨.node k tc cs, .cont⟩, ds ++ [(id, (Plan.node k tc cs).parts)]) := by
        simp only [declareNode, hg, hrt, bind, Except.bind]
      rcases isDistLeaf k with ⟨o, vs, rfl⟩ | hd
      · obtain ⟨rfl, _⟩ := hlv ctx o vs tc cs .root
        unfold downIn
        rw [he]
        simp [bind, Except.bind, assigned, Plan.kind, Kind.isNet, Plan.children, eachUntilStop, withChildren, shareFed, hg,
          preorderIn, preorderInAll, declOf]
      · refine keep _ hk hd he ?_
        simp [declOf, hg]
    | none =>
      have hds : ds = ds ++ ([(ctx, Plan.node k tc cs)].filterMap (declOf reg)) := by simp [declOf, hg]
      have hdecl : declareNode reg rt (.node k tc cs) ctx ds = specialiseNode (.node k tc cs) ctx ds := by
        simp only [declareNode, hg]
      rcases isDistLeaf k with ⟨o, vs, rfl⟩ | hd
      · obtain ⟨rfl, hlt, _⟩ := hlv ctx o vs tc cs .root
        unfold downIn
        rw [hdecl]
        unfold specialiseNode
        simp only [List.getElem?_eq_getElem hlt, bind, Except.bind, Plan.kind, Kind.isNet, Plan.children,
          Bool.false_eq_true, if_false]
        simp [assigned, Plan.kind, eachUntilStop, withChildren, shareFed, hlt, hg, preorderIn, Kind.isNet, preorderInAll, declOf]
      · rcases isCiu k with ⟨ws, m, rfl⟩ | hk
        · rw [shareFed_node hd]
          obtain ⟨es, hes, hnd, hle⟩ := hok ctx ws m tc cs .root
          have hsp : specialiseNode (.node (.ciu ws m) tc cs) ctx ds
              = .ok (⟨.node (.ciu ws m) tc (specialiseUnion es cs), .cont⟩, ds) := by
            simp only [specialiseNode, hes]
          unfold downIn
          rw [hdecl, hsp]
          have has : assigned (.node (.ciu ws m) tc (specialiseUnion es cs)) ctx = true := by
            have := hok.assigned
            simp only [assigned, Plan.kind, Plan.children, specialiseUnion, List.length_mapIdx] at this ⊢
            exact this
          simp only [bind, Except.bind, Plan.kind, Kind.isNet, Bool.false_eq_true, if_false, has, Bool.not_true,
            Plan.children]
          rw [hall cs (specialiseUnion es cs) (childCtx (.ciu ws m) ctx) ds (fun _ h => h) (by simp [specialiseUnion])]
          · simp [withChildren, preorderIn, Kind.isNet, declOf, hg]
          · intro i c c' h1 h2
            simp only [specialiseUnion, List.getElem?_mapIdx, h1, Option.map_some, Option.some.injEq] at h2
            cases hc : childCtx (Row := Row) (.ciu ws m) ctx i with
            | none =>
              rw [(childCtx_none_iff hes i).mp hc] at h2
              exact h2.symm
            | some ctx₁ =>
              have : es.any (fun e => e.1 == i) = true := by
                rw [← Bool.not_eq_false, ← childCtx_none_iff (ws := ws) (Row := Row) hes, hc]
                simp
              rw [this] at h2
              exact h2.symm
          · intro i c ctx₁ hc ha
            exact ⟨hok.child rfl hc ha, hlv.child hok rfl hc ha, hfd.child hok rfl hc ha⟩
        · refine keep ds hk hd ?_ hds
          rw [hdecl]
          unfold specialiseNode
          cases k
          case distLeaf o vs => exact absurd rfl (hd o vs)
          case ciu ws m => exact absurd rfl (hk ws m)
          all_goals rfl

end DD.Tree.Rec
