/-
**C12** Pushing limits below task coalesces; **C13** merging sorted task outputs.
-/
import Verif.Lemmas.Limit
import Verif.Props.Routing
import Verif.Lemmas.PlanFeeds
import Verif.Props.PlanShape
import Mathlib.Data.List.Sort

namespace DD.Limit

variable {Row : Type}

/-! ### One node -/

theorem properAll_iff {cs : List (LPlan Row)} : ProperAll cs ↔ ∀ c ∈ cs, Proper c := by
  induction cs with
  | nil => simp [ProperAll]
  | cons c cs ih => simp [ProperAll, ih]

theorem pushChild_notCoalesce {n : Nat} {c : LPlan Row} (h : notCoalesce c) : pushChild n c = c := by
  cases c with
  | netCoalesce => exact absurd h (by simp [notCoalesce])
  | _ => rfl

/-- Pushing the limit of one node into the coalesces below it does not change what the node may return. -/
theorem pushNode_eqv (W : Nat) {p : LPlan Row} (hp : Proper p) : Eqv (pushNode W p) p := by
  unfold pushNode
  cases hf : fetchRequired W p with
  | none => exact Eqv.refl p
  | some n =>
    simp only
    -- the child of a node with one child
    have child : ∀ c : LPlan Row, parts (pushChild n c) = parts c ∧ (Eqv (pushChild n c) c ∨
        ∀ ctx o, Outs (pushChild n c) ctx o ↔ ∃ u, Outs c ctx u ∧ ∀ q, o q = (u q).take n) := by
      intro c
      cases c with
      | netCoalesce ps tasks c => exact ⟨rfl, .inr fun ctx o => pushChild_outs n ps tasks c ctx o⟩
      | _ => exact ⟨rfl, .inl (Eqv.refl _)⟩
    cases p with
    | op fetch can ps ctxOf rel cs =>
      apply mapChildren_eqv
      intro c hc
      have hne : fetch ≠ none := by
        intro e
        rw [e] at hf
        cases hf
      have := hp.1 (.inl hne) c hc
      rw [pushChild_notCoalesce this]
      exact Eqv.refl c
    | exchange => cases hf
    | netCoalesce => cases hf
    | projection => cases hf
    | globalLimit skip fetch c =>
      rcases (child c).2 with h | h
      · exact mapChildren_eqv _ (fun c' hc' => by
          simp only [children, List.mem_singleton] at hc'; subst hc'; exact h)
      · refine ⟨rfl, fun ctx o => ?_⟩
        cases fetch with
        | none => cases hf
        | some f =>
          have hn : n = f + skip := by
            simp only [fetchRequired, Option.bind_some] at hf
            split at hf
            · cases hf; rfl
            · cases hf
          have htake : ∀ l : List Row, first (some f) ((l.take n).drop skip) = first (some f) (l.drop skip) := by
            intro l
            show ((l.take n).drop skip).take f = (l.drop skip).take f
            rw [List.drop_take, List.take_take, hn]
            congr 1
            omega
          simp only [mapChildren, Outs]
          constructor
          · rintro ⟨u, hu, h0, hq⟩
            obtain ⟨v, hv, e⟩ := (h ctx u).mp hu
            exact ⟨v, hv, by rw [h0, e, htake], hq⟩
          · rintro ⟨u, hu, h0, hq⟩
            exact ⟨fun q => (u q).take n, (h ctx _).mpr ⟨u, hu, fun _ => rfl⟩, by rw [htake, h0], hq⟩
    | localLimit m c =>
      have hn : m = n := by cases hf; rfl
      subst hn
      rcases child c with ⟨hparts, h | h⟩
      · exact mapChildren_eqv _ (fun c' hc' => by
          simp only [children, List.mem_singleton] at hc'; subst hc'; exact h)
      · refine ⟨hparts, fun ctx o => ?_⟩
        simp only [mapChildren, Outs]
        constructor
        · rintro ⟨u, hu, hq⟩
          obtain ⟨v, hv, e⟩ := (h ctx u).mp hu
          exact ⟨v, hv, fun q => by rw [hq, e, List.take_take, Nat.min_self]⟩
        · rintro ⟨u, hu, hq⟩
          exact ⟨fun q => (u q).take m, (h ctx _).mpr ⟨u, hu, fun _ => rfl⟩, fun q => by rw [hq, List.take_take, Nat.min_self]⟩
    | coalesce fetch c =>
      have hn : fetch = some n := hf
      subst hn
      rcases child c with ⟨hparts, h | h⟩
      · exact mapChildren_eqv _ (fun c' hc' => by
          simp only [children, List.mem_singleton] at hc'; subst hc'; exact h)
      · refine ⟨rfl, fun ctx o => ?_⟩
        simp only [mapChildren, Outs, hparts, Interleaved]
        constructor
        · rintro ⟨u, l, hu, hl, h0, hq⟩
          obtain ⟨v, hv, e⟩ := (h ctx u).mp hu
          rw [funext e] at hl
          obtain ⟨l', h1, h2⟩ := (merged_limit Order.any n (parts c) v (l.take n)).mp ⟨l, hl, rfl⟩
          exact ⟨v, l', hv, h1, h0.trans h2, hq⟩
        · rintro ⟨u, l, hu, hl, h0, hq⟩
          obtain ⟨l', h1, h2⟩ := (merged_limit Order.any n (parts c) u (l.take n)).mpr ⟨l, hl, rfl⟩
          exact ⟨fun q => (u q).take n, l', (h ctx _).mpr ⟨u, hu, fun _ => rfl⟩, h1, h0.trans h2, hq⟩
    | spm le fetch c =>
      have hn : fetch = some n := hf
      subst hn
      have hle := hp.1
      rcases child c with ⟨hparts, h | h⟩
      · exact mapChildren_eqv _ (fun c' hc' => by
          simp only [children, List.mem_singleton] at hc'; subst hc'; exact h)
      · refine ⟨rfl, fun ctx o => ?_⟩
        simp only [mapChildren, Outs, hparts]
        constructor
        · rintro ⟨u, l, hu, hl, h0, hq⟩
          obtain ⟨v, hv, e⟩ := (h ctx u).mp hu
          rw [funext e] at hl
          obtain ⟨l', h1, h2⟩ := (merged_limit hle n (parts c) v (l.take n)).mp ⟨l, hl, rfl⟩
          exact ⟨v, l', hv, h1, h0.trans h2, hq⟩
        · rintro ⟨u, l, hu, hl, h0, hq⟩
          obtain ⟨l', h1, h2⟩ := (merged_limit hle n (parts c) u (l.take n)).mpr ⟨l, hl, rfl⟩
          exact ⟨fun q => (u q).take n, l', (h ctx _).mpr ⟨u, hu, fun _ => rfl⟩, h1, h0.trans h2, hq⟩

/-! ### The pass keeps coalesces where they may stand -/

theorem limitTo_proper {n : Nat} {p : LPlan Row} (hp : Proper p) : Proper (limitTo n p) := by
  unfold limitTo withFetch
  split
  · exact ⟨fun _ => hp.1 (.inr rfl), hp.2⟩
  · exact hp
  · exact hp
  · exact hp

theorem applyFetch_proper {n : Nat} {p : LPlan Row} (hp : Proper p) : Proper (applyFetch n p) := by
  unfold applyFetch
  split
  · split
    · exact hp
    · exact limitTo_proper (p := _) hp
  · split
    · exact hp
    · exact limitTo_proper hp

theorem pushChild_proper {n : Nat} {p : LPlan Row} (hp : Proper p) : Proper (pushChild n p) := by
  cases p with
  | netCoalesce => exact applyFetch_proper hp
  | _ => exact hp

theorem pushNode_children {W : Nat} {p : LPlan Row} (hp : Proper p) : ∀ c ∈ children (pushNode W p), Proper c := by
  have hch : ∀ c ∈ children p, Proper c := by
    cases p with
    | op => exact properAll_iff.mp hp.2
    | spm => intro c hc; simp only [children, List.mem_singleton] at hc; subst hc; exact hp.2
    | _ => intro c hc; simp only [children, List.mem_singleton] at hc; subst hc; exact hp
  unfold pushNode
  cases fetchRequired W p with
  | none => exact hch
  | some n =>
    intro c hc
    have : ∃ c0 ∈ children p, c = pushChild n c0 := by
      cases p with
      | op fetch can ps ctxOf rel cs =>
        simp only [mapChildren, children, List.mem_map] at hc
        obtain ⟨c0, h1, h2⟩ := hc
        exact ⟨c0, h1, h2.symm⟩
      | _ =>
        simp only [mapChildren, children, List.mem_singleton] at hc
        exact ⟨_, by simp [children], hc⟩
    obtain ⟨c0, h1, rfl⟩ := this
    exact pushChild_proper (hch c0 h1)

/-! ### **C12** -/

/-- **C12** For every plan, task and largest `usize`: what the plan may return is the same before and after limits are
pushed into the input stages of coalesces. (Whatever the interleaving of streams, a query with a limit returns rows it
could have returned without the pass; and every such answer remains possible.) -/
theorem C12_same_possible_answers (W fuel : Nat) {p : LPlan Row} (hp : Proper p) (ctx : TaskCtx) (o : Outcome Row) :
    Outs (push W fuel p) ctx o ↔ Outs p ctx o := by
  have : Eqv (push W fuel p) p := by
    clear o ctx
    induction fuel generalizing p with
    | zero => exact Eqv.refl p
    | succ n ih =>
      refine Eqv.trans ?_ (pushNode_eqv W hp)
      exact mapChildren_eqv _ fun c hc => ih (pushNode_children hp c hc)
  exact this.2 ctx o

/-- **C12** The query's own limit: whatever a `LIMIT f OFFSET skip` returns after the pass are `f` rows, after the first
`skip`, of what its input may return without the pass; so it returns `f` rows, or all there are after the first `skip`. -/
theorem C12_limit_offset (W fuel skip f : Nat) {c : LPlan Row} (hc : Proper c) {ctx : TaskCtx} {o : Outcome Row}
    (ho : Outs (push W fuel (.globalLimit skip (some f) c)) ctx o) :
    ∃ u, Outs c ctx u ∧ o 0 = ((u 0).drop skip).take f ∧ (o 0).length = min f ((u 0).length - skip) ∧ (o 0).Sublist (u 0) := by
  obtain ⟨u, hu, h0, _⟩ := (C12_same_possible_answers W fuel (p := .globalLimit skip (some f) c) hc ctx o).mp ho
  have h0 : o 0 = ((u 0).drop skip).take f := h0
  exact ⟨u, hu, h0, by simp [h0], by rw [h0]; exact (List.take_sublist ..).trans (List.drop_sublist ..)⟩

/-- **C12** A merge of sorted partitions with a limit: after the pass it returns a list it could have returned without the
pass, and if no two different rows are equal for the order, there is just one: the first `n` rows of the sorted rows of
all partitions. -/
theorem C12_merge_same_list (W fuel n : Nat) {le : Row → Row → Prop} (hle : Order le) (hanti : ∀ a b, le a b → le b a → a = b)
    {c : LPlan Row} (hc : Proper c) {ctx : TaskCtx} {o : Outcome Row}
    (ho : Outs (push W fuel (.spm le (some n) c)) ctx o) :
    ∃ u, Outs c ctx u ∧ ((∀ q < parts c, (u q).Pairwise le) →
      ∀ l : List Row, l.Perm ((List.range (parts c)).flatMap u) → l.Pairwise le → o 0 = l.take n) := by
  obtain ⟨u, l, hu, hl, h0, _⟩ := (C12_same_possible_answers W fuel (p := .spm le (some n) c) ⟨hle, hc⟩ ctx o).mp ho
  refine ⟨u, hu, fun hs l' hp hs' => ?_⟩
  have h1 : l.Pairwise le := hl.sorted hle fun x hx => by
    obtain ⟨q, hq, rfl⟩ := List.mem_map.mp hx
    exact hs q (List.mem_range.mp hq)
  have h2 : l.Perm l' := by
    refine hl.perm.trans ?_
    rw [← List.flatMap_def]
    exact hp.symm
  have : l = l' := h2.eq_of_pairwise (fun a b _ _ h h' => hanti a b h h') h1 hs'
  rw [← this]
  exact h0

/-- **C12** The pass does its job: below a node that keeps `n` rows, each partition of each producer task of a coalesce
returns at most `n` rows. -/
theorem C12_producers_limited (W fuel : Nat) {p : LPlan Row} (hp : Proper p) {n : Nat} (hn : fetchRequired W p = some n)
    {i ps tasks : Nat} {c : LPlan Row} (hi : (children p)[i]? = some (.netCoalesce ps tasks c)) :
    ∃ c', (children (push W (fuel + 2) p))[i]? = some (.netCoalesce ps tasks c') ∧
      ∀ ctx o, Outs c' ctx o → ∀ q, (o q).length ≤ n := by
  have hch : ∀ (f : LPlan Row → LPlan Row) (p : LPlan Row), children (mapChildren f p) = (children p).map f := by
    intro f p
    cases p <;> rfl
  have hc : Proper c := by
    have : Proper (.netCoalesce ps tasks c) := by
      have hmem := List.mem_of_getElem? hi
      cases p with
      | op => exact properAll_iff.mp hp.2 _ hmem
      | spm => simp only [children, List.mem_singleton] at hmem; rw [hmem]; exact hp.2
      | _ => simp only [children, List.mem_singleton] at hmem; rw [hmem]; exact hp
    exact this
  refine ⟨push W fuel (applyFetch n c), ?_, fun ctx o ho q => ?_⟩
  · show (children (mapChildren (push W (fuel + 1)) (pushNode W p)))[i]? = _
    rw [hch, List.getElem?_map]
    unfold pushNode
    rw [hn]
    simp only [hch, List.getElem?_map, hi, Option.map_some]
    rfl
  · rw [C12_same_possible_answers W fuel (applyFetch_proper hc), applyFetch_outs] at ho
    obtain ⟨u, _, e⟩ := ho
    rw [e]
    exact List.length_take_le _ _

/-! ### The pass ends -/

/- An upper bound of the depth the pass reaches. -/
mutual
def reach : LPlan Row → Nat
  | .op _ _ _ _ _ cs => reachAll cs + 1
  | .netCoalesce _ _ c => reach c + 2
  | .exchange _ _ _ c | .globalLimit _ _ c | .localLimit _ c | .coalesce _ c | .spm _ _ c | .projection _ c => reach c + 1
def reachAll : List (LPlan Row) → Nat
  | [] => 0
  | c :: cs => max (reach c) (reachAll cs)
end

theorem reachAll_le {cs : List (LPlan Row)} {c} (h : c ∈ cs) : reach c ≤ reachAll cs := by
  induction cs with
  | nil => cases h
  | cons a cs ih =>
    rw [reachAll]
    rcases List.mem_cons.mp h with rfl | h
    · omega
    · have := ih h; omega

mutual
theorem reach_le : ∀ p : LPlan Row, reach p ≤ 2 * height p
  | .op _ _ _ _ _ cs => by rw [reach, height]; have := reachAll_le_height cs; omega
  | .netCoalesce _ _ c => by rw [reach, height]; have := reach_le c; omega
  | .exchange _ _ _ c => by rw [reach, height]; have := reach_le c; omega
  | .globalLimit _ _ c => by rw [reach, height]; have := reach_le c; omega
  | .localLimit _ c => by rw [reach, height]; have := reach_le c; omega
  | .coalesce _ c => by rw [reach, height]; have := reach_le c; omega
  | .spm _ _ c => by rw [reach, height]; have := reach_le c; omega
  | .projection _ c => by rw [reach, height]; have := reach_le c; omega
theorem reachAll_le_height : ∀ cs : List (LPlan Row), reachAll cs ≤ 2 * heightAll cs
  | [] => Nat.zero_le _
  | c :: cs => by rw [reachAll, heightAll]; have := reach_le c; have := reachAll_le_height cs; omega
end

/-- More fuel changes nothing. -/
def Done (W n : Nat) (p : LPlan Row) : Prop := ∀ m, n ≤ m → push W m p = push W n p

theorem Done.mono {W n n' : Nat} {p : LPlan Row} (h : Done W n p) (hn : n ≤ n') : Done W n' p :=
  fun m hm => (h m (by omega)).trans (h n' hn).symm

theorem mapChildren_congr {f g : LPlan Row → LPlan Row} (p : LPlan Row) (h : ∀ c ∈ children p, f c = g c) :
    mapChildren f p = mapChildren g p := by
  cases p with
  | op fetch can ps ctxOf rel cs =>
    simp only [mapChildren]
    rw [List.map_congr_left (l := cs) h]
  | _ => simp only [mapChildren]; rw [h _ (by simp [children])]

theorem Done.node {W n : Nat} {p : LPlan Row} (h : ∀ c ∈ children (pushNode W p), Done W n c) : Done W (n + 1) p := by
  intro m hm
  obtain ⟨k, rfl⟩ : ∃ k, m = k + 1 := ⟨m - 1, by omega⟩
  exact mapChildren_congr _ fun c hc => h c hc k (by omega)

theorem children_pushNode {W : Nat} {p : LPlan Row} {c} (h : c ∈ children (pushNode W p)) :
    c ∈ children p ∨ ∃ n, ∃ c0 ∈ children p, fetchRequired W p = some n ∧ c = pushChild n c0 := by
  unfold pushNode at h
  cases hf : fetchRequired W p with
  | none => rw [hf] at h; exact .inl h
  | some n =>
    rw [hf] at h
    refine .inr ⟨n, ?_⟩
    cases p with
    | op fetch can ps ctxOf rel cs =>
      simp only [mapChildren, children, List.mem_map] at h
      obtain ⟨c0, h1, h2⟩ := h
      exact ⟨c0, h1, rfl, h2.symm⟩
    | _ =>
      simp only [mapChildren, children, List.mem_singleton] at h
      exact ⟨_, by simp [children], rfl, h⟩

theorem reach_child {p c : LPlan Row} (h : c ∈ children p) : reach c + 1 ≤ reach p := by
  cases p with
  | op _ _ _ _ _ cs => rw [reach]; have := reachAll_le (cs := cs) h; omega
  | _ =>
    simp only [children, List.mem_singleton] at h
    subst h
    rw [reach]
    try omega

theorem size_child {p c : LPlan Row} (h : c ∈ children p) : sizeOf c < sizeOf p := by
  cases p with
  | op _ _ _ _ _ cs => have := List.sizeOf_lt_of_mem (as := cs) h; simp; omega
  | _ => simp only [children, List.mem_singleton] at h; subst h; simp; try omega

/-- Limiting a plan does not change its children. -/
theorem limitTo_children (n : Nat) (p : LPlan Row) : children (limitTo n p) = children p ∨ limitTo n p = .localLimit n p := by
  cases p with
  | op fetch can ps ctxOf rel cs => cases can <;> simp [limitTo, withFetch, children]
  | _ => simp [limitTo, withFetch, children]

theorem done_reach (W : Nat) (p : LPlan Row) : Done W (reach p) p ∧ ∀ n, Done W (reach p) (pushChild n p) := by
  -- one level
  have hlevel : ∀ (r : LPlan Row), (∀ c ∈ children r, c ∈ children p) → Done W (reach p) r := by
    intro r hr
    have hpos : ∃ k, reach p = k + 1 := by
      cases p <;> (rw [reach]; exact ⟨_, rfl⟩)
    obtain ⟨k, hk⟩ := hpos
    rw [hk]
    apply Done.node
    intro c hc
    have hlt : ∀ c ∈ children p, reach c ≤ k := fun c hc => by have := reach_child hc; omega
    rcases children_pushNode hc with h | ⟨n, c0, h, _, rfl⟩
    · have := size_child (hr c h)
      exact (done_reach W c).1.mono (hlt c (hr c h))
    · have := size_child (hr c0 h)
      exact ((done_reach W c0).2 n).mono (hlt c0 (hr c0 h))
  refine ⟨hlevel p fun _ h => h, fun n => ?_⟩
  match p, hlevel with
  | .netCoalesce ps tasks x, hlevel =>
    have hx := done_reach W x
    -- a limited plan needs one level more
    have hlim : ∀ y : LPlan Row, sizeOf y < sizeOf (LPlan.netCoalesce ps tasks x) → Done W (reach y + 1) (limitTo n y) := by
      intro y hy
      have hdy := done_reach W y
      rcases limitTo_children n y with h | h
      · -- the same children
        have hd : Done W (reach y) (limitTo n y) := by
          have hpos : ∃ k, reach y = k + 1 := by
            cases y <;> (rw [reach]; exact ⟨_, rfl⟩)
          obtain ⟨k, hk⟩ := hpos
          rw [hk]
          apply Done.node
          intro c hc
          have hlt : ∀ c ∈ children y, reach c ≤ k := fun c hc => by have := reach_child hc; omega
          rcases children_pushNode hc with h' | ⟨m, c0, h', _, rfl⟩
          · rw [h] at h'
            have := Nat.lt_trans (size_child h') hy
            exact (done_reach W c).1.mono (hlt c h')
          · rw [h] at h'
            have := Nat.lt_trans (size_child h') hy
            exact ((done_reach W c0).2 m).mono (hlt c0 h')
        exact hd.mono (by omega)
      · rw [h]
        apply Done.node
        intro c hc
        rcases children_pushNode hc with h' | ⟨m, c0, h', _, rfl⟩
        · simp only [children, List.mem_singleton] at h'
          subst h'; exact hdy.1
        · simp only [children, List.mem_singleton] at h'
          subst h'; exact hdy.2 m
    have hdone : Done W (reach x + 1) (applyFetch n x) := by
      unfold applyFetch
      split
      · rename_i f y
        split
        · exact hx.1.mono (by omega)
        · rw [reach]
          apply Done.node
          intro c hc
          rcases children_pushNode hc with h' | ⟨m, c0, _, h', _⟩
          · simp only [children, List.mem_singleton] at h'
            subst h'
            exact hlim y (by simp; omega)
          · cases h'
      · split
        · exact hx.1.mono (by omega)
        · exact hlim _ (by simp)
    rw [show reach (.netCoalesce ps tasks x) = reach x + 1 + 1 by rw [reach]]
    apply Done.node
    intro c hc
    rcases children_pushNode hc with h' | ⟨m, c0, _, h', _⟩
    · have h' : c ∈ children (.netCoalesce ps tasks (applyFetch n x)) := h'
      simp only [children, List.mem_singleton] at h'
      subst h'; exact hdone
    · cases h'
  | .op .., hlevel => exact hlevel _ fun _ h => h
  | .exchange .., hlevel => exact hlevel _ fun _ h => h
  | .globalLimit .., hlevel => exact hlevel _ fun _ h => h
  | .localLimit .., hlevel => exact hlevel _ fun _ h => h
  | .coalesce .., hlevel => exact hlevel _ fun _ h => h
  | .spm .., hlevel => exact hlevel _ fun _ h => h
  | .projection .., hlevel => exact hlevel _ fun _ h => h
termination_by sizeOf p
decreasing_by all_goals first | assumption | decreasing_tactic

/-- **C12** The pass ends although it adds nodes: twice the height of the plan is deep enough, and then its result is that of
rewriting the root and going into the new children. -/
theorem C12_terminates (W : Nat) (p : LPlan Row) (fuel : Nat) (hf : 2 * height p ≤ fuel) :
    push W fuel p = push W (2 * height p) p ∧ push W fuel p = mapChildren (push W fuel) (pushNode W p) := by
  have h : Done W (2 * height p) p := (done_reach W p).1.mono (reach_le p)
  exact ⟨h fuel hf, (h.mono hf (fuel + 1) (Nat.le_succ _)).symm⟩

/-! ### Where the planner puts coalesces -/

/-- **C12** The hypothesis of the theorems above, that no coalesce stands directly below another node with a limit, holds
for whatever the planner makes of a query in which the user placed no boundaries (the plans of `Model/Planner`): every
`NetworkCoalesceExec` is the child of a `CoalescePartitionsExec` or `SortPreservingMergeExec`. -/
theorem C12_planned_coalesces {env : Tree.Env Row} (hs : Tree.ScalesLeaves env) {p p' : Tree.Plan Row} (hu : Tree.Undistributed p)
    (hp : Tree.plan env p = .ok (some p')) {t : Nat} {x c : Tree.Plan Row} (hx : Tree.At 1 p' t x) (hc : c ∈ x.children)
    {ps n i : Nat} (hk : c.kind = .netCoalesce ps n i) : (∃ f, x.kind = .coalesce f) ∨ ∃ f le, x.kind = .spm f le := by
  obtain ⟨p1, p2, p3, id, h1, h2, h3, _, rfl⟩ := Tree.plan_steps hp
  have a := (Tree.prepare_fed (Tree.inject_fed hs (Tree.preparePlan_plain hu h1) h2).1 h3).1
  have b : Tree.Fed False (if env.partialReduce then Tree.partialReduce p3 else p3) := by
    split
    · exact (Tree.partialReduce_fed a).1
    · exact a
  have hx := b.at hx
  cases x with
  | node k tc cs =>
    have hg : k.asParent = .gathers := by
      by_cases hne : k.asParent = .gathers
      · exact hne
      · have := hx.inv.2.1 hne c hc
        rw [hk] at this
        cases this
    cases k <;> first | exact .inl ⟨_, rfl⟩ | exact .inr ⟨_, _, rfl⟩ | cases hg

/-- It applies, and coalesces occur: the plan of `Props/Plan`. -/
example : ∃ p', Tree.plan Tree.Demo.sess Tree.Demo.input = .ok (some p') ∧ Tree.ScalesLeaves Tree.Demo.sess
    ∧ Tree.Undistributed Tree.Demo.input := by
  obtain ⟨p', h⟩ : ∃ p', Tree.plan Tree.Demo.sess Tree.Demo.input = .ok (some p') :=
    Tree.planned_of (env := Tree.Demo.sess) (p := Tree.Demo.input) (by decide +kernel)
  exact ⟨p', h, Tree.Demo.sess_scales, Tree.undistributed_of (by decide +kernel)⟩

/-! ### Where it is wrong -/

/-- A leaf of one partition, the same in all tasks. -/
def leafOf (rows : List Nat) : LPlan Nat :=
  .op none false (fun _ => 1) (fun _ _ => none) (fun _ _ o => ∀ q, o q = if q = 0 then rows else []) []

/-- `FilterExec` with a fetch, directly above a coalesce of one task. -/
def filterOverCoalesce : LPlan Nat :=
  .op (some 1) true (fun ps => ps.getD 0 0) (fun ctx _ => some ctx)
    (fun _ os o => ∀ q, o q = ((os.getD 0 (fun _ => [])) q).filter (· % 2 == 0)) [.netCoalesce 1 1 (leafOf [1, 2])]

theorem leafOf_outs (rows : List Nat) (ctx : TaskCtx) (o : Outcome Nat) : Outs (leafOf rows) ctx o ↔ ∀ q, o q = if q = 0 then rows else [] := by
  simp only [leafOf, Outs, OutsAll]
  constructor
  · rintro ⟨os, raw, _, h1, h2⟩ q
    rw [h2, ← h1]; rfl
  · intro h
    exact ⟨[], o, rfl, h, fun _ => rfl⟩

/-- **C12** is false for a coalesce the user places directly below a filter that has a limit: the limit is applied to the
rows before they are filtered. Here the query must return the row 2; after the pass it returns nothing. -/
theorem C12_below_filter_false : ∃ o, Outs filterOverCoalesce ⟨0, 1⟩ o ∧ o 0 = [2] ∧
    ∀ o', Outs (push 100 10 filterOverCoalesce) ⟨0, 1⟩ o' → o' 0 = [] := by
  have hex : ∀ os : Nat → Outcome Nat, coalesced 1 1 ⟨0, 1⟩ os 0 = os 0 0 := by
    intro os
    have : (CoalesceExec.mk 1 1).execute ⟨0, 1⟩ 0 = .ok [⟨0, 0, 0, 1⟩] := by rfl
    simp [coalesced, this]
  refine ⟨fun q => (((coalesced 1 1 ⟨0, 1⟩ (fun _ q => if q = 0 then [1, 2] else []) q).filter (· % 2 == 0))).take 1, ?_, ?_, ?_⟩
  · refine ⟨[coalesced 1 1 ⟨0, 1⟩ (fun _ q => if q = 0 then [1, 2] else [])], _, ?_, fun q => rfl, fun q => rfl⟩
    refine ⟨_, [], rfl, ?_, rfl⟩
    exact ⟨fun _ q => if q = 0 then [1, 2] else [], fun t _ => (leafOf_outs ..).mpr fun _ => rfl, fun _ => rfl⟩
  · simp [hex]
  · intro o' h
    have hp : push 100 10 filterOverCoalesce = .op (some 1) true (fun ps => ps.getD 0 0) (fun ctx _ => some ctx)
        (fun _ os o => ∀ q, o q = ((os.getD 0 (fun _ => [])) q).filter (· % 2 == 0)) [.netCoalesce 1 1 (.localLimit 1 (leafOf [1, 2]))] := rfl
    rw [hp] at h
    obtain ⟨os, raw, h1, h2, h3⟩ := h
    obtain ⟨u, rest, rfl, hu, _⟩ := h1
    obtain ⟨v, hv, hc⟩ := hu
    obtain ⟨w, hw, hl⟩ := hv 0 (by omega)
    rw [leafOf_outs] at hw
    have e : raw 0 = [] := by
      rw [h2 0]
      show (u 0).filter _ = []
      rw [hc, hex, hl, hw]
      rfl
    rw [h3, e]
    rfl

/-! ### Examples -/

/-- A plan the theorems apply to: `LIMIT 2 OFFSET 1` over a merge of two tasks of one partition. -/
def limited : LPlan Nat := .globalLimit 1 (some 2) (.spm (· ≤ ·) (some 3) (.netCoalesce 2 2 (leafOf [1, 4, 7, 9])))

example : Proper limited := by
  refine ⟨⟨fun a b => Nat.le_total a b, fun a b c => Nat.le_trans⟩, ⟨fun h => ?_, trivial⟩⟩
  rcases h with h | h
  · exact absurd rfl h
  · cases h

example : push 100 (2 * height limited) limited
    = .globalLimit 1 (some 2) (.spm (· ≤ ·) (some 3) (.netCoalesce 2 2 (.localLimit 3 (leafOf [1, 4, 7, 9])))) := rfl

/-! ### **C13** -/

/-- What the partitions of a coalesce return, over all consumer tasks and their partitions, is what the producer tasks
return, each partition once. -/
theorem coalesced_all (P N T : Nat) (hT : 0 < T) {e : CoalesceExec} (he : CoalesceExec.tryNew P N T = .ok e) (os : Nat → Outcome Row) :
    ((List.range T).flatMap fun i => (List.range e.outPartitions).flatMap fun q => coalesced e.outPartitions N ⟨i, T⟩ os q)
      = (allPairs N P).flatMap fun x => os x.1 x.2 := by
  obtain ⟨e', he', _, hall⟩ := C01_coalesce_exactly_once P N T hT
  obtain rfl : e' = e := by rw [he] at he'; exact (Except.ok.inj he').symm
  have hN : e'.inputTasks = N := by
    unfold CoalesceExec.tryNew at he
    split at he
    · cases he
    · cases he; rfl
  rw [← hall, allReads, List.flatMap_assoc]
  apply flatMap_congr'
  intro i _
  rw [List.flatMap_assoc]
  apply flatMap_congr'
  intro q _
  have : (CoalesceExec.mk e'.outPartitions N) = e' := by rw [← hN]
  unfold coalesced
  rw [this]
  cases e'.execute ⟨i, T⟩ q with
  | error _ => rfl
  | ok pulls => simp [readsOf, List.flatMap_map]

/-- **C13** For all rows, orders, producer tasks `N` of `P` partitions and consumer tasks `T`: if the partitions of all
producer tasks are sorted, and each consumer task merges the partitions of the coalesce, then each consumer's result is
sorted, and together they are the producers' rows, each as often as it was produced. -/
theorem C13_merge_sorted {le : Row → Row → Prop} (hle : Order le) (P N T : Nat) (hT : 0 < T) {e : CoalesceExec}
    (he : CoalesceExec.tryNew P N T = .ok e) (os : Nat → Outcome Row) (hs : ∀ t < N, ∀ q < P, (os t q).Pairwise le)
    (l : Nat → List Row) (hl : ∀ i < T, Merged le ((List.range e.outPartitions).map (coalesced e.outPartitions N ⟨i, T⟩ os)) (l i)) :
    (∀ i < T, (l i).Pairwise le)
    ∧ ((List.range T).flatMap l).Perm ((allPairs N P).flatMap fun x => os x.1 x.2) := by
  constructor
  · intro i hi
    refine (hl i hi).sorted hle fun x hx => ?_
    obtain ⟨q, hq, rfl⟩ := List.mem_map.mp hx
    obtain ⟨e', he', hex, _⟩ := C01_coalesce_exactly_once P N T hT
    obtain rfl : e' = e := by rw [he] at he'; exact (Except.ok.inj he').symm
    have hN : (CoalesceExec.mk e'.outPartitions N) = e' := by
      unfold CoalesceExec.tryNew at he
      split at he
      · cases he
      · cases he; rfl
    obtain ⟨pulls, h1, h2, h3⟩ := hex i hi q (List.mem_range.mp hq)
    unfold coalesced
    rw [hN, h1]
    match pulls, h2 with
    | [], _ => exact .nil
    | [r], _ =>
      have := h3 r (by simp)
      simpa using hs r.task this.1 r.partition this.2.1
  · rw [← coalesced_all P N T hT he os]
    have : ∀ (is : List Nat), (∀ i ∈ is, i < T) → (is.flatMap l).Perm
        (is.flatMap fun i => (List.range e.outPartitions).flatMap fun q => coalesced e.outPartitions N ⟨i, T⟩ os q) := by
      intro is
      induction is with
      | nil => intro _; exact .refl _
      | cons i is ih =>
        intro h
        simp only [List.flatMap_cons]
        refine List.Perm.append ?_ (ih fun j hj => h j (by simp [hj]))
        have := (hl i (h i (by simp))).perm
        rwa [← List.flatMap_def] at this
    exact this _ fun i hi => List.mem_range.mp hi

/-- **C13** as the planner uses it: a `SortPreservingMergeExec`, with or without a limit, in a single task above a coalesce of a
stage whose tasks return sorted partitions. It returns the first rows of the sorted list of the rows the tasks return. -/
theorem C13_merge_of_coalesce {le : Row → Row → Prop} (hle : Order le) (N : Nat) {p : LPlan Row} {e : CoalesceExec}
    (he : CoalesceExec.tryNew (parts p) N 1 = .ok e)
    (hs : ∀ t < N, ∀ o, Outs p ⟨t, N⟩ o → ∀ q < parts p, (o q).Pairwise le) (fetch : Option Nat) {o : Outcome Row}
    (ho : Outs (.spm le fetch (.netCoalesce e.outPartitions N p)) ⟨0, 1⟩ o) :
    ∃ (os : Nat → Outcome Row) (l : List Row), (∀ t < N, Outs p ⟨t, N⟩ (os t)) ∧ l.Pairwise le
      ∧ l.Perm ((allPairs N (parts p)).flatMap fun x => os x.1 x.2) ∧ o 0 = first fetch l := by
  obtain ⟨u, l, ⟨os, h1, h2⟩, hl, h0, _⟩ := ho
  have hu : u = coalesced e.outPartitions N ⟨0, 1⟩ os := funext h2
  subst hu
  obtain ⟨a, b⟩ := C13_merge_sorted hle (parts p) N 1 (by omega) he os (fun t ht => hs t ht _ (h1 t ht)) (fun _ => l)
    (fun i hi => by
      obtain rfl : i = 0 := by omega
      exact hl)
  exact ⟨os, l, h1, a 0 (by omega), by simpa using b, h0⟩

/-- It applies: two tasks of one sorted partition. -/
example : CoalesceExec.tryNew (parts (leafOf [1, 4])) 2 1 = .ok ⟨2, 2⟩
    ∧ (∀ t < 2, ∀ o, Outs (leafOf [1, 4]) ⟨t, 2⟩ o → ∀ q < parts (leafOf [1, 4]), (o q).Pairwise (· ≤ ·)) := by
  refine ⟨by rfl, fun t _ o ho q _ => ?_⟩
  rw [(leafOf_outs ..).mp ho]
  split <;> simp

end DD.Limit
