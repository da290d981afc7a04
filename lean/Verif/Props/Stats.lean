import Verif.Model.Stats
import Verif.Lemmas.Lists
import Mathlib.Data.Rat.Floor
/-
C50: per-column statistics. C45: metric aggregation. C47: cost expressions.
-/
namespace DD

/-! ## C50 -/

/-- **C50** Summing two vectors of statistics: column `i` of the result is the sum of columns `i`; a length mismatch is
an error (never a truncated result). -/
theorem C50_sum {α} [Add α] (a b : List α) :
    (a.length ≠ b.length → ∃ s, elementWiseSum a b = .error (.internal s)) ∧
    (a.length = b.length → ∃ r, elementWiseSum a b = .ok r ∧ r.length = a.length ∧
      ∀ (i : Nat) x y, a[i]? = some x → b[i]? = some y → r[i]? = some (x + y)) := by
  constructor
  · intro h; exact ⟨_, by simp only [elementWiseSum]; rw [if_pos h]⟩
  · intro h
    refine ⟨_, by simp only [elementWiseSum]; rw [if_neg (by simpa using h)], by simp [h], ?_⟩
    intro i x y hx hy
    simp [List.getElem?_zipWith, hx, hy]

/-- Column `i` summed over all vectors. -/
def columnSum (vecs : List (List Rat)) (i : Nat) : Rat := (vecs.map fun v => v.getD i 0).sum

theorem avgLoop_ok (acc : List Rat) (vs : List (List Rat)) (h : ∀ v ∈ vs, v = [] ∨ v.length = acc.length) :
    ∃ r, avgLoop acc vs = .ok r ∧ r.length = acc.length ∧ ∀ i < acc.length, r.getD i 0 = acc.getD i 0 + columnSum vs i := by
  induction vs generalizing acc with
  | nil => exact ⟨acc, rfl, rfl, by simp [columnSum]⟩
  | cons v vs ih =>
    unfold avgLoop
    rcases h v (by simp) with hv | hv
    · subst hv
      obtain ⟨r, h1, h2, h3⟩ := ih acc (fun w hw => h w (by simp [hw]))
      refine ⟨r, by simpa using h1, h2, ?_⟩
      intro i hi
      rw [h3 i hi]; simp [columnSum]
    · by_cases he : v.isEmpty
      · have : v = [] := by simpa using he
        subst this
        obtain ⟨r, h1, h2, h3⟩ := ih acc (fun w hw => h w (by simp [hw]))
        refine ⟨r, by simpa using h1, h2, ?_⟩
        intro i hi
        rw [h3 i hi]; simp [columnSum]
      · rw [if_neg he, if_neg (by simp [hv])]
        simp only [elementWiseSum]
        rw [if_neg (by simp [hv])]
        obtain ⟨r, h1, h2, h3⟩ := ih (List.zipWith (· + ·) acc v) (by
          intro w hw
          rcases h w (by simp [hw]) with h' | h'
          · exact Or.inl h'
          · right; simp [h', hv])
        refine ⟨r, h1, by simp [h2, hv], ?_⟩
        intro i hi
        have hiv : i < v.length := by omega
        rw [h3 i (by simp [hv]; omega)]
        simp [columnSum, List.getD, List.getElem?_zipWith, List.getElem?_eq_getElem hi, List.getElem?_eq_getElem hiv]
        ring

/-- **C50** (partial) Averaging vectors that are all present: every column is the mean of that column. The full property
also wants the mean when some vectors are empty, which is false: see `C50_average_skips_empty_false`. -/
theorem C50_average_partial (n : Nat) (hn : 0 < n) (vecs : List (List Rat)) (hne : vecs ≠ []) (h : ∀ v ∈ vecs, v.length = n) :
    ∃ r, vecAvgReduce vecs = .ok r ∧ r.length = n ∧ ∀ i < n, r.getD i 0 = columnSum vecs i / vecs.length := by
  cases vecs with
  | nil => exact absurd rfl hne
  | cons v vs =>
    have hv := h v (by simp)
    have hve : v.isEmpty = false := by cases v <;> simp at hv ⊢; omega
    obtain ⟨r, h1, h2, h3⟩ := avgLoop_ok v vs (fun w hw => Or.inr (by rw [h w (by simp [hw]), hv]))
    refine ⟨vecDiv r (vs.length + 1), ?_, by simp [vecDiv, h2, hv], ?_⟩
    · simp [vecAvgReduce, vecAvgReduceAux, hve, h1]
    · intro i hi
      have hir : i < r.length := by omega
      have := h3 i (by omega)
      simp only [List.getD, List.getElem?_eq_getElem hir, Option.getD_some] at this
      simp only [vecDiv, List.getD, List.getElem?_map, List.getElem?_eq_getElem hir, Option.map_some, Option.getD_some, this]
      simp [columnSum, List.getD]

/-- **C50** Two non-empty vectors of different lengths anywhere in the input are an error. -/
theorem C50_average_mismatch (pre post : List (List Rat)) (v w : List Rat) (mid : List (List Rat))
    (hpre : ∀ x ∈ pre, x = []) (hv : v ≠ []) (hw : w ≠ []) (hmid : ∀ x ∈ mid, x = [] ∨ x.length = v.length)
    (hlen : w.length ≠ v.length) : ∃ s, vecAvgReduce (pre ++ v :: (mid ++ w :: post)) = .error (.internal s) := by
  have hve : v.isEmpty = false := by cases v <;> simp at hv ⊢
  have hwe : w.isEmpty = false := by cases w <;> simp at hw ⊢
  have hloop : ∀ (mid : List (List Rat)) (acc : List Rat), acc.length = v.length → (∀ x ∈ mid, x = [] ∨ x.length = v.length) →
      avgLoop acc (mid ++ w :: post) = .error (.internal "vec_avg_reduce: length mismatch") := by
    intro mid
    induction mid with
    | nil => intro acc ha _; simp [avgLoop, hwe, ha, Ne.symm hlen]
    | cons x mid ih =>
      intro acc ha hm
      simp only [List.cons_append, avgLoop]
      by_cases hx : x.isEmpty
      · rw [if_pos hx]; exact ih acc ha (fun y hy => hm y (by simp [hy]))
      · rw [if_neg hx]
        have hxl : x.length = v.length := by
          rcases hm x (by simp) with h | h
          · simp [h] at hx
          · exact h
        rw [if_neg (by simp [ha, hxl])]
        simp only [elementWiseSum]
        rw [if_neg (by simp [ha, hxl])]
        exact ih _ (by simp [ha, hxl]) (fun y hy => hm y (by simp [hy]))
  refine ⟨"vec_avg_reduce: length mismatch", ?_⟩
  unfold vecAvgReduce
  generalize (pre ++ v :: (mid ++ w :: post)).length = n
  induction pre with
  | nil => simp [vecAvgReduceAux, hve, hloop mid v rfl hmid]
  | cons x pre ih =>
    have : x = [] := hpre x (by simp)
    subst this
    simp only [List.cons_append, vecAvgReduceAux, List.isEmpty_nil, if_true]
    exact ih (fun y hy => hpre y (by simp [hy]))

/-- The documented behaviour "empty inner vecs are skipped" (`/repo/src/common/vec.rs:55`) does not give the mean of the
remaining vectors: empty vectors still count in the divisor. `[[4], []]` averages to `[2]`. -/
theorem C50_average_skips_empty_false :
    vecAvgReduce [[4], []] = .ok [2] ∧ columnSum [[4]] 0 / 1 = 4 := by
  constructor
  · simp [vecAvgReduce, vecAvgReduceAux, avgLoop, vecDiv]; norm_num
  · simp [columnSum]

/-- What averaging does in general: the sum of the non-empty vectors' column divided by the number of *all* vectors. -/
theorem C50_average_general (n : Nat) (hn : 0 < n) (vecs : List (List Rat)) (h : ∀ v ∈ vecs, v = [] ∨ v.length = n) :
    ∃ r, vecAvgReduce vecs = .ok r ∧ ((∀ v ∈ vecs, v = []) → r = []) ∧
      ((∃ v ∈ vecs, v ≠ []) → r.length = n ∧ ∀ i < n, r.getD i 0 = columnSum vecs i / vecs.length) := by
  unfold vecAvgReduce
  have key : ∀ (m : Nat), ∃ r, vecAvgReduceAux m vecs = .ok r ∧ ((∀ v ∈ vecs, v = []) → r = []) ∧
      ((∃ v ∈ vecs, v ≠ []) → r.length = n ∧ ∀ i < n, r.getD i 0 = columnSum vecs i / m) := by
    intro m
    induction vecs with
    | nil => exact ⟨[], rfl, by simp, by simp⟩
    | cons v vs ih =>
      rcases h v (by simp) with hv | hv
      · subst hv
        obtain ⟨r, h1, h2, h3⟩ := ih (fun w hw => h w (by simp [hw]))
        refine ⟨r, by simpa [vecAvgReduceAux] using h1, ?_, ?_⟩
        · intro hall; exact h2 (fun w hw => hall w (by simp [hw]))
        · rintro ⟨w, hw, hne⟩
          rcases List.mem_cons.mp hw with rfl | hw
          · exact absurd rfl hne
          · obtain ⟨h4, h5⟩ := h3 ⟨w, hw, hne⟩
            refine ⟨h4, ?_⟩
            intro i hi
            rw [h5 i hi]; simp [columnSum]
      · have hve : v.isEmpty = false := by cases v <;> simp at hv ⊢; omega
        obtain ⟨r, h1, h2, h3⟩ := avgLoop_ok v vs (fun w hw => by rw [hv]; exact h w (by simp [hw]))
        refine ⟨vecDiv r m, by simp [vecAvgReduceAux, hve, h1], ?_, ?_⟩
        · intro hall
          have := hall v (by simp)
          subst this; simp at hve
        · intro _
          refine ⟨by simp [vecDiv, h2, hv], ?_⟩
          intro i hi
          have hir : i < r.length := by omega
          have := h3 i (by omega)
          simp only [List.getD, List.getElem?_eq_getElem hir, Option.getD_some] at this
          simp only [vecDiv, List.getD, List.getElem?_map, List.getElem?_eq_getElem hir, Option.map_some, Option.getD_some, this]
          simp [columnSum, List.getD]
  exact key _

/-! ## C45 -/

theorem foldl_min_eq (l : List Nat) (a : Nat) : l.foldl (fun c v => min c (max v 1)) a = (l.map (max · 1)).foldr min a := by
  induction l generalizing a with
  | nil => rfl
  | cons x l ih =>
    simp only [List.foldl_cons, List.map_cons, List.foldr_cons]
    rw [ih]
    generalize l.map (max · 1) = m
    induction m with
    | nil => simp [Nat.min_comm]
    | cons y m ihm => simp only [List.foldr_cons]; omega

theorem foldr_min_append (l m : List Nat) (a : Nat) : (l ++ m).foldr min a = min (l.foldr min a) (m.foldr min a) := by
  induction l with
  | nil =>
    simp only [List.nil_append, List.foldr_nil]
    induction m with
    | nil => simp
    | cons x m ih => simp only [List.foldr_cons]; omega
  | cons x l ih => simp only [List.cons_append, List.foldr_cons, ih]; omega

theorem foldl_max_eq (f : Nat → Nat) (l : List Nat) (a : Nat) : l.foldl (fun c v => max c (f v)) a = (l.map f).foldr max a := by
  induction l generalizing a with
  | nil => rfl
  | cons x l ih =>
    simp only [List.foldl_cons, List.map_cons, List.foldr_cons]
    rw [ih]
    generalize l.map f = m
    induction m with
    | nil => simp [Nat.max_comm]
    | cons y m ihm => simp only [List.foldr_cons]; omega

theorem foldr_max_append (l m : List Nat) : (l ++ m).foldr max 0 = max (l.foldr max 0) (m.foldr max 0) := by
  induction l with
  | nil => simp
  | cons x l ih => simp only [List.cons_append, List.foldr_cons, ih]; omega

/-- **C45** Min latency: whatever the order and grouping of recording and aggregation, the result is the minimum over
all recorded values (each at least 1 ns), `usize::MAX` when nothing was recorded. -/
theorem C45_min (t : AggTree) :
    MetricKind.minLatency.eval t = (t.vals.map (max · 1)).foldr min (wordSize - 1) := by
  induction t with
  | recorded vs => exact foldl_min_eq vs _
  | merge a b iha ihb =>
    simp only [MetricKind.eval, MetricKind.aggregate, AggTree.vals, List.map_append, foldr_min_append, iha, ihb]

/-- **C45** Max latency: the maximum over all recorded values (each at least 1 ns), 0 when nothing was recorded. -/
theorem C45_max (t : AggTree) : MetricKind.maxLatency.eval t = (t.vals.map (max · 1)).foldr max 0 := by
  induction t with
  | recorded vs => exact foldl_max_eq (max · 1) vs _
  | merge a b iha ihb =>
    simp only [MetricKind.eval, MetricKind.aggregate, AggTree.vals, List.map_append, foldr_max_append, iha, ihb]

/-- **C45** Max gauge. -/
theorem C45_max_gauge (t : AggTree) : MetricKind.maxGauge.eval t = t.vals.foldr max 0 := by
  induction t with
  | recorded vs =>
    have := foldl_max_eq id vs 0
    rw [List.map_id] at this
    exact this
  | merge a b iha ihb =>
    simp only [MetricKind.eval, MetricKind.aggregate, AggTree.vals, foldr_max_append, iha, ihb]

/-- **C45** Byte counters: the sum of all recorded values (modulo the word size, hence the exact sum when it fits). -/
theorem C45_bytes (t : AggTree) : MetricKind.bytes.eval t = t.vals.sum % wordSize := by
  induction t with
  | recorded vs =>
    have : ∀ a, vs.foldl (MetricKind.record .bytes) (a % wordSize) = (a + vs.sum) % wordSize := by
      induction vs with
      | nil => intro a; simp
      | cons x vs ih =>
        intro a
        simp only [List.foldl_cons, MetricKind.record, Nat.mod_add_mod, List.sum_cons]
        rw [ih, Nat.add_assoc]
    simpa [MetricKind.eval, MetricKind.empty, AggTree.vals] using this 0
  | merge a b iha ihb => simp [MetricKind.eval, MetricKind.aggregate, AggTree.vals, iha, ihb, Nat.add_mod]

/-- **C45** Average latency: sum of all recorded values (each at least 1 ns) and their number, hence their mean,
whatever the order and grouping, as long as they fit in a word. -/
theorem C45_avg (t : AggTree) :
    AvgMetric.eval t = { sum := (t.vals.map (max · 1)).sum % wordSize, count := t.vals.length % wordSize } := by
  induction t with
  | recorded vs =>
    have : ∀ a c, vs.foldl AvgMetric.record { sum := a % wordSize, count := c % wordSize }
        = { sum := (a + (vs.map (max · 1)).sum) % wordSize, count := (c + vs.length) % wordSize } := by
      induction vs with
      | nil => intro a c; simp
      | cons x vs ih =>
        intro a c
        simp only [List.foldl_cons, AvgMetric.record, Nat.mod_add_mod, List.map_cons, List.sum_cons, List.length_cons]
        rw [ih]
        congr 1 <;> congr 1 <;> omega
    simpa [AvgMetric.eval, AggTree.vals] using this 0 0
  | merge a b iha ihb => simp [AvgMetric.eval, AvgMetric.aggregate, AggTree.vals, iha, ihb, Nat.add_mod]

theorem C45_avg_mean (t : AggTree) (h : (t.vals.map (max · 1)).sum < wordSize) (hne : t.vals ≠ []) :
    (AvgMetric.eval t).value = (t.vals.map (max · 1)).sum / t.vals.length := by
  have hl : t.vals.length ≤ (t.vals.map (max · 1)).sum := by
    generalize t.vals = l
    induction l with
    | nil => simp
    | cons x l ih => simp only [List.map_cons, List.sum_cons, List.length_cons]; omega
  have hp : 0 < t.vals.length := List.length_pos_iff.mpr hne
  rw [C45_avg]
  simp only [AvgMetric.value, Nat.mod_eq_of_lt h, Nat.mod_eq_of_lt (Nat.lt_of_le_of_lt hl h), Nat.max_eq_left hp]

/-- **C45** Independence of order and grouping, for all five: two ways of aggregating the same recorded values (in any
order) agree. -/
theorem C45_order_independent (t u : AggTree) (h : t.vals.Perm u.vals) :
    MetricKind.minLatency.eval t = MetricKind.minLatency.eval u ∧ MetricKind.maxLatency.eval t = MetricKind.maxLatency.eval u ∧
    MetricKind.bytes.eval t = MetricKind.bytes.eval u ∧ MetricKind.maxGauge.eval t = MetricKind.maxGauge.eval u ∧
    AvgMetric.eval t = AvgMetric.eval u := by
  have hp := h.map (max · 1)
  refine ⟨?_, ?_, ?_, ?_, ?_⟩
  · rw [C45_min, C45_min]; exact hp.foldr_eq' (fun x _ y _ z => by omega) _
  · rw [C45_max, C45_max]; exact hp.foldr_eq' (fun x _ y _ z => by omega) _
  · rw [C45_bytes, C45_bytes, h.sum_eq]
  · rw [C45_max_gauge, C45_max_gauge]; exact h.foldr_eq' (fun x _ y _ z => by omega) _
  · rw [C45_avg, C45_avg, hp.sum_eq, h.length_eq]

/-- The first-latency metric is not order independent (it keeps whichever aggregate came first). -/
theorem C45_first_order_dependent : ∃ t u : AggTree, t.vals.Perm u.vals ∧ MetricKind.first.eval t ≠ MetricKind.first.eval u :=
  ⟨.merge (.recorded [1]) (.recorded [2]), .merge (.recorded [2]) (.recorded [1]), by decide, by decide⟩

example : MetricKind.minLatency.eval (.merge (.recorded [5, 3]) (.merge (.recorded []) (.recorded [0, 9]))) = 1 := by decide
example : (AvgMetric.eval (.merge (.recorded [5, 3]) (.merge (.recorded []) (.recorded [4])))).value = 4 := by decide

/-! ## C47 -/

/-- A cost formula as the planner builds it: constants, column sizes, sums, products and logarithms. -/
inductive CostExpr where
  | const (n : Nat)
  | lin (l : Linear)
  | add (a b : CostExpr)
  | mul (a b : CostExpr)
  | log (a b : CostExpr)

/-- The planner's way: build with the simplifying constructors, then evaluate. -/
def CostExpr.build (log2 : Rat → Rat) : CostExpr → Complexity
  | .const n => .constant n
  | .lin l => .linear l
  | .add a b => .mkPlus (a.build log2) (b.build log2)
  | .mul a b => .mkMultiply (a.build log2) (b.build log2)
  | .log a b => .mkLog log2 (a.build log2) (b.build log2)

/-- Specification: evaluate the parts and combine the costs directly (saturating at `M`). -/
def CostExpr.direct (M : Nat) (out : Option Nat) (inputs : List Complexity.ChildStats) : CostExpr → Except Err (Option Nat)
  | .const n => .ok (some (min n M))
  | .lin l => .ok (Complexity.linearCost out inputs l)
  | .add a b => Complexity.andThen (a.direct M out inputs) fun x => Complexity.andThen (b.direct M out inputs) fun y => .ok (some (min (x + y) M))
  | .mul a b => Complexity.andThen (a.direct M out inputs) fun x => Complexity.andThen (b.direct M out inputs) fun y => .ok (some (min (x * y) M))
  | .log a b => Complexity.andThen (a.direct M out inputs) fun x => Complexity.andThen (b.direct M out inputs) fun y => Complexity.logCost M x y

def Complexity.isConst : Complexity → Bool
  | .constant _ => true
  | _ => false

/-- No logarithm is taken of a constant times a constant (sort costs always contain a column term). -/
def CostExpr.noConstLog (log2 : Rat → Rat) : CostExpr → Prop
  | .const _ | .lin _ => True
  | .add a b | .mul a b => a.noConstLog log2 ∧ b.noConstLog log2
  | .log a b => a.noConstLog log2 ∧ b.noConstLog log2 ∧ ¬ ((a.build log2).isConst ∧ (b.build log2).isConst)

/-- Every constant in a built expression is a whole number. -/
def Complexity.whole : Complexity → Prop
  | .constant v => ∃ n : Nat, v = n
  | .linear _ => True
  | .log a b | .plus a b | .multiply a b => a.whole ∧ b.whole

theorem castUsize_nat (M n : Nat) : Complexity.castUsize M (n : Rat) = min n M := by
  have : (n : Rat).floor = (n : Int) := by
    have := Rat.floor_intCast (n : Int)
    simpa using this
  simp [Complexity.castUsize, this]

theorem mkMultiply_cost (M : Nat) (out : Option Nat) (inputs : List Complexity.ChildStats) (a b : Complexity)
    (ha : a.whole) (hb : b.whole) :
    (Complexity.mkMultiply a b).whole ∧
    (Complexity.mkMultiply a b).cost M out inputs
      = Complexity.andThen (a.cost M out inputs) fun x => Complexity.andThen (b.cost M out inputs) fun y => .ok (some (min (x * y) M)) := by
  unfold Complexity.mkMultiply
  split
  · rename_i n m
    obtain ⟨n, rfl⟩ := ha
    obtain ⟨m, rfl⟩ := hb
    refine ⟨⟨n * m, by push_cast; rfl⟩, ?_⟩
    simp only [Complexity.cost, Complexity.andThen]
    rw [← Nat.cast_mul, castUsize_nat, castUsize_nat, castUsize_nat]
    congr 2
    rcases Nat.le_total n M with h1 | h1 <;> rcases Nat.le_total m M with h2 | h2
    · rw [Nat.min_eq_left h1, Nat.min_eq_left h2]
    · rw [Nat.min_eq_left h1, Nat.min_eq_right h2]
      rcases Nat.eq_zero_or_pos n with rfl | hn
      · simp
      · rw [Nat.min_eq_right (Nat.le_trans h2 (Nat.le_mul_of_pos_left m hn)), Nat.min_eq_right (Nat.le_mul_of_pos_left M hn)]
    · rw [Nat.min_eq_right h1, Nat.min_eq_left h2]
      rcases Nat.eq_zero_or_pos m with rfl | hm
      · simp
      · rw [Nat.min_eq_right (Nat.le_trans h1 (Nat.le_mul_of_pos_right n hm)), Nat.min_eq_right (Nat.le_mul_of_pos_right M hm)]
    · rw [Nat.min_eq_right h1, Nat.min_eq_right h2]
      rcases Nat.eq_zero_or_pos M with rfl | hM
      · simp
      · have : M ≤ n * m := Nat.le_trans h1 (Nat.le_mul_of_pos_right n (Nat.lt_of_lt_of_le hM h2))
        rw [Nat.min_eq_right this, Nat.min_eq_right (Nat.le_mul_of_pos_right M hM)]
  · exact ⟨⟨ha, hb⟩, rfl⟩

theorem mkPlus_cost (M : Nat) (hM : 2 ≤ M) (out : Option Nat) (inputs : List Complexity.ChildStats) (a b : Complexity)
    (ha : a.whole) (hb : b.whole) :
    (Complexity.mkPlus a b).whole ∧
    (Complexity.mkPlus a b).cost M out inputs
      = Complexity.andThen (a.cost M out inputs) fun x => Complexity.andThen (b.cost M out inputs) fun y => .ok (some (min (x + y) M)) := by
  fun_induction Complexity.mkPlus a b with
  | case1 n m =>
    obtain ⟨n, rfl⟩ := ha
    obtain ⟨m, rfl⟩ := hb
    refine ⟨⟨n + m, by push_cast; rfl⟩, ?_⟩
    simp only [Complexity.cost, Complexity.andThen]
    rw [← Nat.cast_add, castUsize_nat, castUsize_nat, castUsize_nat]
    congr 2
    omega
  | case2 a k m ih =>
    obtain ⟨ha1, k, rfl⟩ := ha
    obtain ⟨m, rfl⟩ := hb
    obtain ⟨h1, h2⟩ := ih ha1 ⟨k + m, by push_cast; rfl⟩
    refine ⟨h1, ?_⟩
    rw [h2]
    simp only [Complexity.cost]
    rw [← Nat.cast_add, castUsize_nat, castUsize_nat, castUsize_nat]
    rcases a.cost M out inputs with e | (_ | x)
    · rfl
    · rfl
    · simp only [Complexity.andThen]
      congr 2
      omega
  | case3 b h1 h2 =>
    obtain ⟨h3, h4⟩ := mkMultiply_cost M out inputs (.constant 2) b ⟨2, by norm_num⟩ hb
    refine ⟨h3, ?_⟩
    rw [h4]
    have h22 : Complexity.castUsize M 2 = 2 := by
      have := castUsize_nat M 2
      simp only [Nat.cast_ofNat] at this
      rw [this]; omega
    simp only [Complexity.cost, Complexity.andThen, h22]
    rcases b.cost M out inputs with e | (_ | x)
    · rfl
    · rfl
    · simp only
      congr 3
      omega
  | case4 a b h1 h2 h3 => exact ⟨⟨ha, hb⟩, rfl⟩

/-- **C47** For every formula over whole constants without logarithms of constants, every statistics (including missing
ones) and every word size, evaluating the simplified expression gives exactly the directly combined cost: the same
value, the same "unknown", and the same overflow. -/
theorem C47_simplification_preserves_cost (log2 : Rat → Rat) (M : Nat) (hM : 2 ≤ M) (out : Option Nat)
    (inputs : List Complexity.ChildStats) (e : CostExpr) (he : e.noConstLog log2) :
    (e.build log2).cost M out inputs = e.direct M out inputs := by
  suffices h : (e.build log2).whole ∧ (e.build log2).cost M out inputs = e.direct M out inputs from h.2
  induction e with
  | const n => exact ⟨⟨n, rfl⟩, by simp [CostExpr.build, CostExpr.direct, Complexity.cost, castUsize_nat]⟩
  | lin l => exact ⟨trivial, rfl⟩
  | add a b iha ihb =>
    obtain ⟨h1, h2⟩ := iha he.1
    obtain ⟨h3, h4⟩ := ihb he.2
    obtain ⟨h5, h6⟩ := mkPlus_cost M hM out inputs _ _ h1 h3
    exact ⟨h5, by simp only [CostExpr.build, CostExpr.direct]; rw [h6, h2, h4]⟩
  | mul a b iha ihb =>
    obtain ⟨h1, h2⟩ := iha he.1
    obtain ⟨h3, h4⟩ := ihb he.2
    obtain ⟨h5, h6⟩ := mkMultiply_cost M out inputs _ _ h1 h3
    exact ⟨h5, by simp only [CostExpr.build, CostExpr.direct]; rw [h6, h2, h4]⟩
  | log a b iha ihb =>
    obtain ⟨h1, h2⟩ := iha he.1
    obtain ⟨h3, h4⟩ := ihb he.2.1
    have hnc := he.2.2
    have hl : Complexity.mkLog log2 (a.build log2) (b.build log2) = .log (a.build log2) (b.build log2) := by
      unfold Complexity.mkLog
      split
      · rename_i n m e1 e2
        rw [e1, e2] at hnc
        exact absurd ⟨rfl, rfl⟩ hnc
      · rfl
    refine ⟨?_, ?_⟩
    · simp only [CostExpr.build]; rw [hl]; exact ⟨h1, h3⟩
    · simp only [CostExpr.build, CostExpr.direct]; rw [hl]; simp only [Complexity.cost]; rw [h2, h4]

/-- Fractional constants are outside the claim: folding them before truncation changes the cost (`0.5 + 0.5`). The
planner's own formulas only use `0`, `1` and whole consumer counts. -/
theorem C47_fractional_constants_differ :
    (Complexity.mkPlus (.constant (1/2)) (.constant (1/2))).cost 100 none [] = .ok (some 1) ∧
    Complexity.andThen ((Complexity.constant (1/2)).cost 100 none []) (fun x =>
      Complexity.andThen ((Complexity.constant (1/2)).cost 100 none []) fun y => .ok (some (min (x + y) 100))) = .ok (some 0) := by
  constructor
  · have : ((1:Rat)/2 + 1/2) = ((1 : Nat) : Rat) := by norm_num
    simp only [Complexity.mkPlus, Complexity.cost]
    rw [this, castUsize_nat]; rfl
  · decide +kernel

example : (CostExpr.log (.add (.lin .allColumns) (.lin (.column 0))) (.lin .allOutputColumns)).noConstLog (fun x => x) ∧
    (CostExpr.add (.add (.lin .allColumns) (.const 1)) (.const 1)).build (fun x => x)
      = Complexity.plus (.linear .allColumns) (.constant (1 + 1)) := by
  constructor
  · simp [CostExpr.noConstLog, CostExpr.build, Complexity.mkPlus, Complexity.isConst]
  · simp [CostExpr.build, Complexity.mkPlus]

end DD
