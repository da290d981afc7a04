/-
**C09**, **C10**: joins whose build side is broadcast, and the rewriting of collect joins.
-/
import Verif.Props.Plan

namespace DD.Tree

variable {Row : Type} {env : Env Row}

/-! ### **C09** -/

/-- **C09**, first half. For the join types the planner broadcasts, joining the whole build side with every piece
of the probe side separately and putting the results together is the join: for every predicate, all data
and every way of cutting the probe side into pieces (partitions of all tasks). -/
theorem C09_safe_types_split (s : JoinSpec Row) (hn : s.nullAware = none)
    (hs : s.jt ∈ [JoinType.inner, .right, .rightSemi, .rightAnti, .rightMark])
    (build : List Row) (pieces : List (List Row)) :
    (pieces.flatMap (joinRows s build)).Perm (joinRows s build pieces.flatten) := by
  have hsafe : s.safe = true := by
    simp only [JoinSpec.safe, hn, Option.isNone_none, Bool.and_true]
    revert hs
    cases s.jt <;> simp [JoinType.broadcastSafe]
  have := joinRows_probe_flatMap s hsafe build pieces id
  simpa [List.flatMap_id] using this.symm

/-- The row type and predicate of the counterexamples: rows match if their first components are equal. -/
def eqJoin (jt : JoinType) : JoinSpec (Nat × Nat) := Demo.onFirst jt

/-- **C09**, second half. For every other join type there are a build side and two probe pieces for which it
is not. -/
theorem C09_other_types_do_not_split (jt : JoinType)
    (h : jt ∉ [JoinType.inner, .right, .rightSemi, .rightAnti, .rightMark]) :
    ∃ (s : JoinSpec (Nat × Nat)) (build : List (Nat × Nat)) (pieces : List (List (Nat × Nat))),
      s.jt = jt ∧ s.nullAware = none
      ∧ ¬ (pieces.flatMap (joinRows s build)).Perm (joinRows s build pieces.flatten) := by
  refine ⟨eqJoin jt, [(1, 1)], [[(1, 2)], [(1, 3)], [(2, 2)]], rfl, rfl, ?_⟩
  cases jt <;> first | (exfalso; revert h; decide) | decide +kernel

/-- A null-aware anti join is not safe even though the code's type test alone is the same. -/
theorem C09_null_aware_does_not_split :
    ∃ (s : JoinSpec (Option Nat)) (f : List (Option Nat) → List (Option Nat) → List (Option Nat)),
      s.nullAware = some f ∧ ∃ (build : List (Option Nat)) (pieces : List (List (Option Nat))),
        ¬ (pieces.flatMap (joinRows s build)).Perm (joinRows s build pieces.flatten) := by
  -- NOT IN: no row survives if the probe side contains a null
  refine ⟨⟨.leftAnti, fun l r => l == r, fun l _ => l.getD none, fun r _ => r, fun r => r.getD 0, fun r => r.getD 0,
    some fun ls rs => if none ∈ rs then [] else ls.filter fun l => !rs.contains l⟩, _, rfl, [some 1], [[some 2], [none]], ?_⟩
  decide +kernel

/-- A join of a type the first half covers, that is not hash partitioned; a cross join is an inner join. -/
def Kind.maySplit : Kind Row → Bool
  | .join .partitioned _ => false
  | .join .cross _ => true
  | .join _ s => s.jt ∈ [JoinType.inner, .right, .rightSemi, .rightAnti, .rightMark]
  | _ => false

/- Broadcast nodes stand only below a gathering node that is the build side of such a join. -/
mutual
def BroadcastsOnlySafe : Plan Row → Prop
  | .node k _ cs => (∀ n, k ≠ .broadcast n) ∧ OnlySafeFirst k cs
def OnlySafeFirst (k : Kind Row) : List (Plan Row) → Prop
  | [] => True
  | b :: cs => (k.maySplit = true ∧ BuildSide b ∨ BroadcastsOnlySafe b) ∧ OnlySafeAll cs
def BuildSide : Plan Row → Prop
  | .node (.coalesce _) _ [.node (.broadcast _) _ [x]] => BroadcastsOnlySafe x
  | _ => False
def OnlySafeAll : List (Plan Row) → Prop
  | [] => True
  | c :: cs => BroadcastsOnlySafe c ∧ OnlySafeAll cs
end

/- A plan as DataFusion hands it over: without broadcast nodes. -/
mutual
def NoBroadcast : Plan Row → Prop
  | .node k _ cs => (∀ n, k ≠ .broadcast n) ∧ NoBroadcastAll cs
def NoBroadcastAll : List (Plan Row) → Prop
  | [] => True
  | c :: cs => NoBroadcast c ∧ NoBroadcastAll cs
end

theorem buildSide_of {p : Plan Row} (h : BroadcastsOnlySafe p) : BuildSide (broadcastBuild p) := by
  unfold broadcastBuild
  split
  · rename_i f tc x
    simp only [fresh, BuildSide]
    simp only [BroadcastsOnlySafe, OnlySafeFirst, Kind.maySplit] at h
    rcases h.2.1 with h | h
    · cases h.1
    · exact h
  · simp only [fresh, BuildSide]
    exact h

theorem maySplit_of {k : Kind Row} (h : canBroadcast k = true) : k.maySplit = true := by
  cases k with
  | join m s =>
    cases m <;> simp only [canBroadcast, Kind.maySplit, Bool.false_eq_true] at h ⊢
    all_goals (cases hj : s.jt <;> simp [hj, JoinType.broadcastSafe] at h ⊢)
  | _ => cases h

mutual
theorem onlySafe_insert : ∀ p : Plan Row, NoBroadcast p → BroadcastsOnlySafe (insertBroadcast p)
  | .node k tc cs, h => by
    rw [NoBroadcast] at h
    have hall := onlySafeAll_insert cs h.2
    rw [insertBroadcast]
    split
    · rename_i b rest e
      rw [e, OnlySafeAll] at hall
      rw [BroadcastsOnlySafe]
      refine ⟨h.1, ?_⟩
      by_cases hk : canBroadcast k = true
      · rw [if_pos hk, OnlySafeFirst]
        exact ⟨.inl ⟨maySplit_of hk, buildSide_of hall.1⟩, hall.2⟩
      · rw [if_neg hk, OnlySafeFirst]
        exact ⟨.inr hall.1, hall.2⟩
    · rw [BroadcastsOnlySafe]
      exact ⟨h.1, by rw [OnlySafeFirst]; trivial⟩
theorem onlySafeAll_insert : ∀ cs : List (Plan Row), NoBroadcastAll cs → OnlySafeAll (insertBroadcastAll cs)
  | [], _ => by simp [insertBroadcastAll, OnlySafeAll]
  | c :: cs, h => by
    rw [NoBroadcastAll] at h
    rw [insertBroadcastAll, OnlySafeAll]
    exact ⟨onlySafe_insert c h.1, onlySafeAll_insert cs h.2⟩
end

/-- **C09**, third part. The planner broadcasts the build side of joins of these types only (cross joins, which
have no type, are inner joins): every broadcast node of the plan stands below the gathering node that is the
build side of such a join. -/
theorem C09_planner_broadcasts_only_safe (p : Plan Row) (h : NoBroadcast p) :
    BroadcastsOnlySafe (insertBroadcast p) := onlySafe_insert p h

/-- Non-vacuity: the pass does insert a broadcast, and its place matters. -/
example : NoBroadcast Demo.input ∧ BroadcastsOnlySafe (insertBroadcast Demo.input)
    ∧ (∃ b, insertBroadcast Demo.input = fresh Demo.keep [fresh (.join .collect (Demo.onFirst .inner))
        [fresh (.coalesce none) [fresh (.broadcast 1) [b]], Demo.big]])
    ∧ ¬ BroadcastsOnlySafe (fresh (.join .collect (Demo.onFirst .left))
        [fresh (.coalesce none) [fresh (.broadcast 1) [Demo.small]], Demo.big]) := by
  have h : NoBroadcast Demo.input := by
    simp [Demo.input, Demo.small, Demo.big, fresh, NoBroadcast, NoBroadcastAll, Demo.keep]
  refine ⟨h, C09_planner_broadcasts_only_safe _ h, ⟨_, rfl⟩, ?_⟩
  simp [fresh, BroadcastsOnlySafe, OnlySafeFirst, Kind.maySplit, Demo.onFirst, OnlySafeAll]

/-! ### **C10** -/

/-- **C10**, hash joins. Joining bucket by bucket after repartitioning both sides on the join keys is the join of
the whole inputs: for every join type, predicate, hash function that respects the keys, partition count and
all data. -/
theorem C10_collect_to_partitioned (s : JoinSpec Row) (hk : s.Equi) (hn : s.nullAware = none) (n : Nat) (h0 : 0 < n)
    (ls rs : List Row) :
    ((List.range n).flatMap fun b => joinRows s (hashPart s.lk n b ls) (hashPart s.rk n b rs)).Perm
      (joinRows s ls rs) := (joinRows_buckets s hk hn n h0 ls rs).symm

/-- **C10**, nested loop joins. Swapping the sides (with the swapped join type and output columns restored) is
the same join, for every join type. -/
theorem C10_swapped (s : JoinSpec Row) (ls rs : List Row) :
    (joinRows s.swap rs ls).Perm (joinRows s ls rs) := joinRows_swap s ls rs

/-- **C10**, whole plans. `normalize_collect_joins` keeps what a plan means, wherever its joins are: everything the
rewritten plan may answer, the original plan may answer. -/
theorem C10_normalize_keeps_answers (he : EnvOk env) {p p' : Plan Row} {J : SInfo Row} (h : Src env .pre p J)
    (hE : J.eqv = .perm) (hp : normalize env p = .ok p') {d : List Row} (hd : Answer p' d) :
    ∃ d', Answer p d' ∧ d.Perm d' := by
  obtain ⟨_, e⟩ := normalize_src he h rfl p' hp
  rw [hE] at e
  exact e d hd

/-- **C10**, whole plans. If the query has only one answer, this is what the original plan returns on a single node. -/
theorem C10_normalize_keeps_rows (he : EnvOk env) {p p' : Plan Row} {J : SInfo Row} (h : Src env .pre p J)
    (hE : J.eqv = .perm) (hrep : J.rep = false) (hone : OneAnswer p) (hp : normalize env p = .ok p') :
    ∀ d, Answer p' d → d.Perm (singleNode p) := by
  intro d hd
  obtain ⟨d1, h1, e1⟩ := C10_normalize_keeps_answers he h hE hp hd
  obtain ⟨d2, h2, e2⟩ := C08_single_node_is_an_answer h hE hrep
  exact (e1.trans (hone d1 d2 h1 h2)).trans e2.symm

/-- The rewritten hash join is legal, with both sides repartitioned into any number of partitions and any plans below,
and has the same answers. -/
theorem C10_rewritten_hash_join (s : JoinSpec Row) (l r : Plan Row) (n : Nat) :
    Answer (fresh (.join .partitioned s) [fresh (.hashRepart s.lk n none) [l], fresh (.hashRepart s.rk n none) [r]])
      = Answer (fresh (.join .collect s) [fresh (.coalesce none) [l], r]) := by
  have e : ∀ m, Answer (fresh (.join m s) [fresh (.hashRepart s.lk n none) [l], fresh (.hashRepart s.rk n none) [r]])
      = Answer (fresh (.join m s) [fresh (.coalesce none) [l], r]) := fun m =>
    answer_binary ((answer_pass (fun _ _ => Iff.rfl) _ _ _).trans (answer_pass (fun _ _ => Iff.rfl) _ _ _).symm)
      (answer_pass (fun _ _ => Iff.rfl) _ _ _)
  rw [← e .collect]
  funext d
  apply propext
  simp only [fresh, answer_two]
  rfl

/-- Running the rewritten hash join: both sides repartitioned into any number of partitions, any plans below. -/
theorem C10_rewritten_hash_join_runs (s : JoinSpec Row) (hk : s.Equi) (hn : s.nullAware = none)
    {l r : Plan Row} {P P'} (hl : Legal false 1 l ⟨P, none, false, .perm⟩) (hr : Legal false 1 r ⟨P', none, false, .perm⟩)
    {n : Nat} (h0 : 0 < n) :
    ∃ d, Answer (fresh (.join .collect s) [fresh (.coalesce none) [l], r]) d ∧
      (singleNode (fresh (.join .partitioned s) [fresh (.hashRepart s.lk n none) [l], fresh (.hashRepart s.rk n none) [r]])).Perm d := by
  have h1 : Legal false 1 (fresh (.join .partitioned s) [fresh (.hashRepart s.lk n none) [l], fresh (.hashRepart s.rk n none) [r]])
      ⟨n, none, false, .perm⟩ :=
    .joinPart hk hn (by rintro _ ⟨⟩) (.hashRepart h0 (by simp) hl) (.hashRepart h0 (by simp) hr)
  obtain ⟨_, d, hd, e⟩ := h1.rows_one false
  exact ⟨d, by rw [← C10_rewritten_hash_join s l r n]; exact hd, e⟩

/-- Running the rewritten nested loop join: the side that was streamed is now gathered, the other one streamed. -/
theorem C10_rewritten_nested_loop_join_runs (s : JoinSpec Row) (hn : s.nullAware = none)
    {l r : Plan Row} {P P'} (hl : Legal false 1 l ⟨P, none, false, .perm⟩) (hr : Legal false 1 r ⟨P', none, false, .perm⟩) :
    ∃ d, Answer (fresh (.join .nested s) [fresh (.coalesce none) [l], r]) d ∧
      (singleNode (fresh (.join .nested s.swap) [fresh (.coalesce none) [r], l])).Perm d := by
  have h1 : Legal false 1 (fresh (.join .nested s.swap) [fresh (.coalesce none) [r], l]) ⟨P, none, false, .perm⟩ :=
    .joinSingle (by simp) (unordered_of_none (by simp [JoinSpec.swap, hn])) (.coalesce hr) hl
  obtain ⟨_, d, hd, e⟩ := h1.rows_one false
  obtain ⟨y, x, hy, hx, rfl⟩ := answer_two.mp hd
  rw [fresh, answer_pass (fun _ _ => Iff.rfl)] at hy
  refine ⟨joinRows s x y, answer_two.mpr ⟨x, y, ?_, hy, rfl⟩, List.Perm.trans e (joinRows_swap s x y)⟩
  rw [fresh, answer_pass (fun _ _ => Iff.rfl)]
  exact hx

end DD.Tree
