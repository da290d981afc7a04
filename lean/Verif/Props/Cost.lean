/-
C61: the estimated cost of a stage.
-/
import Verif.Lemmas.Cost
import Verif.Props.TaskCount

namespace DD.StageCost
open Complexity

/-! ## Every operator -/

/-- **C61** For every operator but a sort, every expression tree in it and every size: the operator is charged the bytes
it reads, the bytes it keeps and the bytes it receives, saturated at the largest machine word. -/
theorem C61_operator_cost (log2 : Rat → Rat) (M : Nat) (hM : 2 ≤ M) (op : Node) (below : List Node) (stats : Stats)
    (children : List Stats) (s : Sizes) (h : Known M op stats children s) (hs : ∀ keys fetch, op ≠ .sort keys fetch) :
    nodeCost log2 M op below stats children
      = .ok ⟨some (min (cpuBytes s op) M), some (min (memoryBytes s op) M), some (min (networkBytes s below op) M)⟩ := by
  simp only [nodeCost, (cpu_val hM log2 op stats children s h hs).cost h, (memory_val hM op stats children s h).cost h,
    (network_val op below stats children s h).cost h]
  rfl

/-- **C61** A sort is charged the bytes of its input and keys times the logarithm of what it keeps: everything, or with
a limit only its output. A product beyond the largest machine word is a panic. -/
theorem C61_sort_cost (log2 : Rat → Rat) (M : Nat) (hM : 2 ≤ M) (keys : List Expr) (fetch : Bool) (below : List Node)
    (stats : Stats) (children : List Stats) (s : Sizes) (h : Known M (.sort keys fetch) stats children s) :
    let n := min (cpuBytes s (.sort keys fetch)) M * Nat.log2 (min (sortKept s keys fetch) M)
    nodeCost log2 M (.sort keys fetch) below stats children =
      if n > M then .error (.panic "attempt to multiply with overflow")
      else .ok ⟨some n, some (min (memoryBytes s (.sort keys fetch)) M), some 0⟩ := by
  have r := h.reads rfl
  have ho : linearCost stats.total (children.map Stats.child) .allOutputColumns = some s.out := h.out
  have hin := keyed_val (M := M) hM keys s r.all r.col
  have hlin : hasLin (plusAll (.linear .allColumns) (keys.map keyComplexity)) := hasLin_plusAll _ trivial
  have hm := (memory_val hM _ stats children s h).cost h
  have hn := (network_val (M := M) (.sort keys fetch) below stats children s h).cost h
  intro n
  have hcpu : (complexityCpu log2 (.sort keys fetch)).cost M stats.total (children.map Stats.child)
      = if n > M then .error (.panic "attempt to multiply with overflow") else .ok (some n) := by
    cases fetch with
    | true =>
      simp only [complexityCpu, if_true]
      rw [mkLog_eq log2 hlin, Complexity.cost, hin.cost h, (Val.lin (M := M) ho).cost h]
      simp only [andThen, logCost, ilog2]
      rfl
    | false =>
      simp only [complexityCpu, Bool.false_eq_true, if_false]
      rw [mkLog_eq log2 hlin, Complexity.cost, hin.cost h]
      simp only [andThen, logCost, ilog2]
      rfl
  simp only [nodeCost, hcpu, hm, hn]
  by_cases hgt : n > M
  · simp only [hgt, if_true]; rfl
  · simp only [hgt, if_false]
    show Except.ok _ = _
    simp [networkBytes]

/-! ## A stage -/

/-- **C61** The cost of a stage is the sum of what its operators are charged, every operator exactly once with the
statistics it sees; operators without a known cost are left out of the sum. -/
theorem C61_stage_cost_is_sum (log2 : Rat → Rat) (M : Nat) (t : Tree) (c : Cost) (h : calculateCost true log2 M t = .ok c) :
    ∃ s vs ks, t.visits M = .ok (s, vs) ∧ vs.map (·.op) = t.ops ∧ List.Forall₂ (Charged log2 M) vs ks ∧ c = together ks := by
  unfold calculateCost at h
  rcases h1 : t.cost true log2 M with e | ⟨c', s⟩
  · rw [h1] at h; cases h
  rw [h1] at h
  cases h
  obtain ⟨vs, ks, hv, hf, hc⟩ := cost_sum log2 M t c' s h1
  exact ⟨s, vs, ks, hv, visits_ops M t s vs hv, hf, hc⟩

/-! ## Statistics -/

/-- **C61** The statistics the formulas are given: what an operator declares is kept; an unknown row count is the sum of
the known row counts of its inputs; with a row count, every column has a size, by its type if nothing better is known;
and the size of the output is always known. -/
theorem C61_statistics_filled (M : Nat) (raw s : Stats) (types : List DataType) (children : List Stats)
    (h : planStatistics M raw types children = .ok s) :
    s.rows = raw.rows.or (sumKnown (children.map (·.rows)))
    ∧ (∀ n, raw.total = some n → s.total = some n) ∧ s.total.isSome
    ∧ s.cols.length = raw.cols.length
    ∧ ∀ (i : Nat) c, raw.cols[i]? = some c → ∃ c', s.cols[i]? = some c'
        ∧ (∀ n, c.bytes = some n → c'.bytes = some n)
        ∧ (∀ r, s.rows = some r → c.bytes = none →
            ∃ t, types[i]? = some t ∧ c'.bytes = some (min (t.defaultBytes * r) M)) := by
  have htot := planStatistics_total h
  unfold planStatistics at h
  obtain ⟨r, hrow, h⟩ := bind_ok h
  obtain ⟨cols, hcols, h⟩ := bind_ok h
  cases h
  refine ⟨inheritedRows_eq hrow, fun n hn => by simp [hn], rfl, ?_⟩
  cases r with
  | none =>
    cases hcols
    exact ⟨rfl, fun i c hc => ⟨c, hc, fun n hn => hn, fun r hr => by cases hr⟩⟩
  | some r =>
    obtain ⟨h1, h2⟩ := fillColumns_get _ _ hcols
    refine ⟨h1, fun i c hc => ?_⟩
    obtain ⟨t, ht, d, hd, e⟩ := h2 i c hc
    refine ⟨d, hd, fun n hn => by rw [e, hn]; rfl, fun r' hr' hn => ⟨t, ht, ?_⟩⟩
    cases hr'
    rw [e, hn]
    rfl

/-! ## More data -/

/-- **C61** For every stage and every statistics: if no operator sees less data and both costs are computed without
overflow, no cost is smaller. Partial: see `C61_huge_join_false` for overflow. -/
theorem C61_more_data_costs_no_less_partial (log2 : Rat → Rat) (M : Nat) (t u : Tree) (h : Tree.NoLess t u) (c c' : Cost)
    (hc : calculateCost true log2 M t = .ok c) (hc' : calculateCost true log2 M u = .ok c') : Cost.NoLess c c' := by
  unfold calculateCost at hc hc'
  rcases h1 : t.cost true log2 M with e | ⟨k, s⟩
  · rw [h1] at hc; cases hc
  rcases h2 : u.cost true log2 M with e | ⟨k', s'⟩
  · rw [h2] at hc'; cases hc'
  rw [h1] at hc
  rw [h2] at hc'
  cases hc; cases hc'
  exact (tree_mono log2 M t u h h1 h2).1

/-- **C61** and therefore the stage never gets fewer tasks. -/
theorem C61_more_data_no_fewer_tasks_partial (log2 : Rat → Rat) (M : Nat) (t u : Tree) (h : Tree.NoLess t u) (c c' : Cost)
    (hc : calculateCost true log2 M t = .ok c) (hc' : calculateCost true log2 M u = .ok c')
    (bytes parts m : Nat) (a r r' : TaskCount) (hr : dynamicTaskCount c.cpu bytes parts m a = .ok r)
    (hr' : dynamicTaskCount c'.cpu bytes parts m a = .ok r') : r.asUsize ≤ r'.asUsize := by
  have := (C61_more_data_costs_no_less_partial log2 M t u h c c' hc hc').cpu
  rcases hx : c.cpu with _ | x <;> rcases hy : c'.cpu with _ | y <;> rw [hx, hy] at this <;> rw [hx] at hr <;> rw [hy] at hr'
  · rw [hr] at hr'; cases hr'; exact Nat.le_refl _
  · exact this.elim
  · exact this.elim
  · exact C46_dynamic_mono x y this bytes parts m a r r' hr hr'

/-- A release build, in which sums wrap, computes the same cost as a checked build that does not panic. -/
theorem C61_release_agrees (log2 : Rat → Rat) (M : Nat) (t : Tree) (c : Cost) (h : calculateCost true log2 M t = .ok c) :
    calculateCost false log2 M t = .ok c := by
  unfold calculateCost at h ⊢
  rcases h1 : t.cost true log2 M with e | r
  · rw [h1] at h; cases h
  rw [h1] at h
  rw [cost_release log2 M t h1]
  exact h

/-- **C61** The cpu cost of every stage whose leaves are sources or network boundaries is known. -/
theorem C61_cost_known (log2 : Rat → Rat) (M : Nat) (t : Tree) (ht : t.Grounded) (c : Cost)
    (h : calculateCost true log2 M t = .ok c) : c.cpu.isSome := by
  obtain ⟨s, vs, ks, hv, _, hf, rfl⟩ := C61_stage_cost_is_sum log2 M t c h
  obtain ⟨v, hmem, hl, hs⟩ := visits_leaf ht hv
  obtain ⟨i, hi⟩ := List.mem_iff_getElem?.1 hmem
  rcases forall₂_getElem? hf i with ⟨e, _⟩ | ⟨a, k, e, e', hck⟩
  · rw [hi] at e; cases e
  · rw [hi] at e; cases e
    exact sumKnown_isSome (List.mem_map_of_mem (List.mem_of_getElem? e')) (leaf_charged log2 hl hs hck)

/-! ## Overflow -/

/-- A table of `n` bytes. -/
def Demo.scan (n : Nat) : Tree := .node .dataSource (fun _ => .ok ⟨some 1, some n, []⟩) [] []

/-- A nested loop join of two tables of `n` bytes. -/
def Demo.join (n : Nat) : Tree := .node (.nestedLoopJoin none) (fun _ => .ok ⟨some 1, some 1, []⟩) [] [Demo.scan n, Demo.scan n]

theorem Demo.join_noLess : Tree.NoLess (Demo.join (2 ^ 31)) (Demo.join (2 ^ 33)) := by
  have hs : Tree.NoLess (Demo.scan (2 ^ 31)) (Demo.scan (2 ^ 33)) := by
    refine .node ?_ rfl (by intro i t u h; cases h)
    intro xs ys a b _ ha hb
    cases ha; cases hb
    exact ⟨Nat.le_refl _, by show 2 ^ 31 ≤ 2 ^ 33; decide, .nil⟩
  refine .node ?_ rfl ?_
  · intro xs ys a b _ ha hb
    cases ha; cases hb
    exact ⟨Nat.le_refl _, Nat.le_refl _, .nil⟩
  · intro i t u ht hu
    match i with
    | 0 => cases ht; cases hu; exact hs
    | 1 => cases ht; cases hu; exact hs
    | _ + 2 => cases ht

/-- **C61** is false of sums beyond the largest machine word. The product of a nested loop join over two tables of
8 GiB is saturated, and adding the cost of the tables themselves overflows: a checked build panics, and a release
build is left with the cost of reading the tables, less than for tables of 2 GiB, and plans fewer tasks. -/
theorem C61_huge_join_false :
    let M := 2 ^ 64 - 1
    let small := Demo.join (2 ^ 31)
    let huge := Demo.join (2 ^ 33)
    Tree.NoLess small huge
    ∧ calculateCost true id M huge = .error (.panic "attempt to add with overflow")
    ∧ ∃ c c', calculateCost false id M small = .ok c ∧ calculateCost false id M huge = .ok c'
        ∧ c.cpu = some (2 ^ 62 + 2 ^ 32) ∧ c'.cpu = some (2 ^ 34 - 1)
        ∧ ∃ r r', dynamicTaskCount c.cpu (2 ^ 24) 16 100 (.desired 1) = .ok r
            ∧ dynamicTaskCount c'.cpu (2 ^ 24) 16 100 (.desired 1) = .ok r' ∧ r'.asUsize < r.asUsize := by
  refine ⟨Demo.join_noLess, by decide +kernel, ⟨some (2 ^ 62 + 2 ^ 32), some (2 ^ 31), some 0⟩,
    ⟨some (2 ^ 34 - 1), some (2 ^ 33), some 0⟩, by decide +kernel, by decide +kernel, rfl, rfl, .desired 100, .desired 64, ?_, ?_, ?_⟩
  · decide +kernel
  · decide +kernel
  · decide

/-- **C61** is false of sorts, too: the logarithm is multiplied without saturating, and the plan of a sort of 2^60 bytes, which the
estimate for a join may well be, is a panic in a checked build. -/
theorem C61_huge_sort_false : calculateCost true id (2 ^ 64 - 1)
      (.node (.sort [] false) (fun _ => .ok ⟨some 1, some 1, []⟩) [] [Demo.scan (2 ^ 60)])
    = .error (.panic "attempt to multiply with overflow") := by
  decide +kernel

/-- **C61** is false of broadcasts. A stage is only charged when the stages below it run already, and then their boundaries have no
operators below them: a broadcast that sends its input to `k` tasks is charged as if it sent it to one. -/
theorem C61_broadcast_factor_false (log2 : Rat → Rat) (M : Nat) (hM : 2 ≤ M) (stats : Stats) (s : Sizes)
    (h : Known M .boundary stats [] s) (k : Nat) (hk : 2 ≤ k) (hs : 0 < s.out) (hfit : s.out * k ≤ M) :
    ∃ c, nodeCost log2 M .boundary [] stats [] = .ok c ∧ c.network = some s.out ∧ s.out < networkBytes s [.broadcast k] .boundary := by
  have hle : s.out * 2 ≤ s.out * k := Nat.mul_le_mul_left _ hk
  refine ⟨_, C61_operator_cost log2 M hM .boundary [] stats [] s h (by intro _ _ h; cases h), ?_, ?_⟩
  · show some (min s.out M) = some s.out
    rw [Nat.min_eq_left (by omega)]
  · show s.out < s.out * k
    omega

example : Known (2 ^ 64 - 1) .boundary ⟨some 1, some 8, []⟩ [] ⟨0, 0, 8, fun _ => 0, fun _ => 0⟩ := by
  refine ⟨fun h => (by cases h), fun h => (by cases h), rfl, fun c hc => ?_⟩
  simp only [List.mem_singleton] at hc
  subst hc
  exact ⟨fun n h => by cases h; decide, fun k hk => by cases hk⟩

/-! ## The hypotheses are met -/

/-- `SELECT a + a * b FROM l JOIN r ON l.0 = r.1 AND l.0 < r.1`, say. -/
def Demo.hash : Node := .hashJoin [(.column 0, .call [.column 1])]
  (some ⟨.call [.column 0, .call [.column 1, .literal]], [(0, .left), (1, .right)]⟩)

def Demo.sizes : Sizes := ⟨100, 200, 50, fun _ => 40, fun _ => 70⟩

example : Known (2 ^ 64 - 1) Demo.hash ⟨some 5, some 50, []⟩
      [⟨some 10, some 100, [⟨none, some 40⟩]⟩, ⟨some 20, some 200, [⟨none, some 130⟩, ⟨none, some 70⟩]⟩] Demo.sizes
    ∧ cpuBytes Demo.sizes Demo.hash = 2 * 100 + 200 + 40 + 70 + (40 + 2 * 70) := by
  refine ⟨⟨fun _ => ⟨_, rfl, rfl, ?_⟩, fun _ => ⟨_, rfl, rfl, ?_⟩, rfl, ?_⟩, by decide +kernel⟩
  · intro i hi
    have : i = 0 := by
      have h : Demo.hash.leftReads = [0, 0] := by decide +kernel
      rw [h] at hi; simpa using hi
    subst this
    exact ⟨_, rfl, rfl⟩
  · intro i hi
    have : i = 1 := by
      have h : Demo.hash.rightReads = [1, 1] := by decide +kernel
      rw [h] at hi; simpa using hi
    subst this
    exact ⟨_, rfl, rfl⟩
  · intro c hc
    simp only [List.mem_cons, List.not_mem_nil, or_false] at hc
    rcases hc with rfl | rfl | rfl <;> refine ⟨by intro n h; cases h; decide, ?_⟩
    · intro k hk; cases hk
    · intro k hk n hn
      simp only [List.mem_cons, List.not_mem_nil, or_false] at hk
      subst hk; cases hn; decide
    · intro k hk n hn
      simp only [List.mem_cons, List.not_mem_nil, or_false] at hk
      rcases hk with rfl | rfl <;> cases hn <;> decide

/-- A sort with a limit over a table. -/
example : Known (2 ^ 64 - 1) (.sort [.column 0] true) ⟨some 1, some 8, []⟩ [⟨some 4, some 64, [⟨none, some 32⟩]⟩]
      ⟨64, 64, 8, fun _ => 32, fun _ => 0⟩
    ∧ nodeCost id (2 ^ 64 - 1) (.sort [.column 0] true) [] ⟨some 1, some 8, []⟩ [⟨some 4, some 64, [⟨none, some 32⟩]⟩]
      = .ok ⟨some ((64 + 32) * 3), some 8, some 0⟩ := by
  refine ⟨⟨fun _ => ⟨_, rfl, rfl, ?_⟩, fun _ => ⟨_, rfl, rfl, ?_⟩, rfl, ?_⟩, by decide +kernel⟩
  · intro i hi
    have h : (Node.sort [.column 0] true).leftReads = [0] := by decide +kernel
    rw [h] at hi
    obtain rfl : i = 0 := by simpa using hi
    exact ⟨_, rfl, rfl⟩
  · intro i hi; cases hi
  · intro c hc
    simp only [List.mem_cons, List.not_mem_nil, or_false] at hc
    rcases hc with rfl | rfl <;> refine ⟨by intro n h; cases h; decide, ?_⟩
    · intro k hk; cases hk
    · intro k hk n hn
      simp only [List.mem_cons, List.not_mem_nil, or_false] at hk
      subst hk; cases hn; decide

/-- A stage that reads a table with two columns, one of unknown size, and groups it. -/
def Demo.stage (n : Nat) : Tree :=
  .node (.repartition [.column 0]) (fun _ => .ok ⟨none, none, [⟨none, none⟩]⟩) [.primitive 8]
    [.node (.aggregate [.column 0] [some (.call [.column 1, .literal]), none] false) (fun _ => .ok ⟨none, none, [⟨none, none⟩]⟩) [.primitive 8]
      [.node .dataSource (fun _ => .ok ⟨some n, none, [⟨none, some (8 * n)⟩, ⟨none, none⟩]⟩) [.primitive 8, .bytes] []]]

example : (Demo.stage 10).Grounded ∧ (Demo.stage 10).ops.length = 3
    ∧ calculateCost true id (2 ^ 64 - 1) (Demo.stage 10)
      = .ok ⟨some (630 + (630 + 80 + 550) + (90 + 90)), some 90, some 0⟩ := by
  refine ⟨.inner (.inner (.leaf rfl)), by decide +kernel, by decide +kernel⟩

end DD.StageCost
