/-
What EXPLAIN ANALYZE writes for the metrics of the library itself (C69 with C45).
-/
import Verif.Spec.OwnMetrics
import Verif.Props.MetricsDisplay
import Verif.Props.Stats

namespace DD.MetricsDisplay

open DD.Metrics DD.Tree DD.Tree.Rec

variable (u : Units) (cfg : Percentile.Config)

theorem kind_aggregate (a b : Own) : (a.aggregate cfg b).kind = a.kind := by
  cases a <;> cases b <;> simp only [Own.aggregate] <;> first | rfl | (split <;> rfl)

/-- The metrics of the library keep the contract of metrics. -/
theorem own_lawful : (own u cfg).Lawful fun v => (v.1, v.2.kind) where
  same := by rintro ⟨a, x⟩ ⟨b, y⟩ h; simp only [Prod.mk.injEq] at h; exact ⟨h.1, rfl, rfl⟩
  empty := by rintro ⟨a, x⟩; cases x <;> rfl
  aggregate := by
    rintro ⟨a, x⟩ ⟨b, y⟩ _
    exact ⟨_, rfl, by simp only [kind_aggregate]⟩

theorem kind_eval (k : OwnKind) (t : AggTree) : (k.eval cfg t).kind = k := by cases k <;> rfl

theorem empty_eval (k : OwnKind) (t : AggTree) : (k.eval cfg t).empty = k.eval cfg (.recorded []) := by cases k <;> rfl

theorem aggregate_eval (k : OwnKind) (t t' : AggTree) :
    (k.eval cfg t).aggregate cfg (k.eval cfg t') = k.eval cfg (.merge t t') := by
  cases k <;> simp only [OwnKind.eval, Own.aggregate, if_true] <;> rfl

/-- The metrics of several partitions, aggregated one after another. -/
def inTurn : AggTree → List (List Nat) → AggTree
  | t, [] => t
  | t, vs :: rest => inTurn (.merge t (.recorded vs)) rest

theorem inTurn_vals : ∀ (vss : List (List Nat)) (t : AggTree), (inTurn t vss).vals = t.vals ++ vss.flatten
  | [], t => by simp [inTurn]
  | vs :: rest, t => by
    rw [inTurn, inTurn_vals rest]
    simp [AggTree.vals]

theorem foldlM_own (name : String) (k : OwnKind) : ∀ (vss : List (List Nat)) (t : AggTree),
    (vss.map fun vs => (name, k.eval cfg (.recorded vs))).foldlM (own u cfg).aggregate (name, k.eval cfg t) =
      .ok (name, k.eval cfg (inTurn t vss))
  | [], t => rfl
  | vs :: rest, t => by
    rw [List.map_cons, List.foldlM_cons]
    rw [show (own u cfg).aggregate (name, k.eval cfg t) (name, k.eval cfg (.recorded vs)) =
        .ok (name, k.eval cfg (.merge t (.recorded vs))) by
      show Except.ok (name, _) = _; rw [aggregate_eval]]
    exact foldlM_own name k rest _

theorem total_own {name : String} {k : OwnKind} {vss : List (List Nat)} {v : String × Own} :
    Total (own u cfg) (vss.map fun vs => (name, k.eval cfg (.recorded vs))) v ↔
      vss ≠ [] ∧ v = (name, k.eval cfg (inTurn (.recorded []) vss)) := by
  constructor
  · rintro ⟨a, rest, e, h⟩
    cases vss with
    | nil => cases e
    | cons vs vss =>
      refine ⟨by simp, ?_⟩
      have ha : a = (name, k.eval cfg (.recorded vs)) := by rw [List.map_cons] at e; exact (List.cons.inj e).1.symm
      rw [ha] at h
      rw [show (own u cfg).empty (name, k.eval cfg (.recorded vs)) = (name, k.eval cfg (.recorded [])) by
        show (name, _) = _; rw [empty_eval]] at h
      rw [foldlM_own] at h
      exact (Except.ok.inj h).symm
  · rintro ⟨hne, rfl⟩
    cases vss with
    | nil => exact absurd rfl hne
    | cons vs vss =>
      refine ⟨_, _, rfl, ?_⟩
      rw [show (own u cfg).empty (name, k.eval cfg (.recorded vs)) = (name, k.eval cfg (.recorded [])) by
        show (name, _) = _; rw [empty_eval]]
      exact foldlM_own u cfg name k (vs :: vss) _

/-! ### What the values are -/

theorem foldr_max_least {b : Nat} : ∀ (l : List Nat), ∀ v ∈ l, (∀ w ∈ l, w ≤ v) → b ≤ v → l.foldr max b = v
  | l, v, hv, hw, hb => by
    apply Nat.le_antisymm
    · clear hv
      induction l with
      | nil => exact hb
      | cons a l ih =>
        rw [List.foldr_cons]
        exact Nat.max_le.2 ⟨hw a (by simp), ih fun w h => hw w (by simp [h])⟩
    · clear hw
      induction l with
      | nil => cases hv
      | cons a l ih =>
        rw [List.foldr_cons]
        rcases List.mem_cons.1 hv with rfl | h
        · exact Nat.le_max_left ..
        · exact Nat.le_trans (ih h) (Nat.le_max_right ..)

theorem foldr_min_greatest {b : Nat} : ∀ (l : List Nat), ∀ v ∈ l, (∀ w ∈ l, v ≤ w) → v ≤ b → l.foldr min b = v
  | l, v, hv, hw, hb => by
    apply Nat.le_antisymm
    · clear hw
      induction l with
      | nil => cases hv
      | cons a l ih =>
        rw [List.foldr_cons]
        rcases List.mem_cons.1 hv with rfl | h
        · exact Nat.min_le_left ..
        · exact Nat.le_trans (Nat.min_le_right ..) (ih h)
    · clear hv
      induction l with
      | nil => exact hb
      | cons a l ih =>
        rw [List.foldr_cons]
        exact Nat.le_min.2 ⟨hw a (by simp), ih fun w h => hw w (by simp [h])⟩

theorem first_eval : ∀ t : AggTree, MetricKind.first.eval t = match t.vals with | [] => 0 | v :: _ => max v 1
  | .recorded vs => by
    have stay : ∀ (l : List Nat) (a : Nat), a ≠ 0 → l.foldl MetricKind.first.record a = a := by
      intro l
      induction l with
      | nil => exact fun _ _ => rfl
      | cons b l ih =>
        intro a ha
        rw [List.foldl_cons]
        show l.foldl MetricKind.first.record (if a = 0 then max b 1 else a) = a
        rw [if_neg ha]; exact ih a ha
    cases vs with
    | nil => rfl
    | cons v vs =>
      show vs.foldl MetricKind.first.record (if (0 : Nat) = 0 then max v 1 else 0) = max v 1
      rw [if_pos rfl]
      exact stay _ _ (by omega)
  | .merge a b => by
    show (if MetricKind.first.eval a = 0 then MetricKind.first.eval b else MetricKind.first.eval a) = _
    rw [first_eval a, first_eval b]
    simp only [AggTree.vals]
    cases ha : a.vals with
    | nil => simp
    | cons v vs => simp only [List.cons_append]; rw [if_neg (by omega)]

theorem percentile_nothing : ∀ t : AggTree, t.vals = [] → Percentile.eval cfg t = {}
  | .recorded vs, h => by
    have : vs = [] := h
    rw [this]; rfl
  | .merge a b, h => by
    have h' : a.vals = [] ∧ b.vals = [] := List.append_eq_nil_iff.1 h
    show (Percentile.eval cfg a).aggregate cfg (Percentile.eval cfg b) = _
    rw [percentile_nothing a h'.1, percentile_nothing b h'.2]; rfl

/-- However the values were recorded and aggregated, a metric is written as it should be. -/
theorem shows_eval (k : OwnKind) (t : AggTree) : Shows u cfg k t.vals ((k.eval cfg t).print u cfg) := by
  match k with
  | .plain .minLatency =>
    refine ⟨fun h => ?_, fun v hv hw hs => ?_⟩
    · show (if MetricKind.minLatency.eval t = wordSize - 1 then _ else _) = _
      rw [C45_min, h]; rfl
    · have e : MetricKind.minLatency.eval t = max v 1 := by
        rw [C45_min]
        refine foldr_min_greatest _ _ (List.mem_map_of_mem hv) ?_ (by have : 1 < wordSize := by decide
                                                                      omega)
        intro w hw'
        obtain ⟨x, hx, rfl⟩ := List.mem_map.1 hw'
        have := hw x hx
        show max v 1 ≤ max x 1
        omega
      show (if MetricKind.minLatency.eval t = wordSize - 1 then _ else u.duration (MetricKind.minLatency.eval t)) = _
      have : 2 < wordSize := by decide
      rw [e, if_neg (by omega)]
  | .plain .maxLatency =>
    refine ⟨fun h => ?_, fun v hv hw => ?_⟩
    · show u.duration (MetricKind.maxLatency.eval t) = _
      rw [C45_max, h]; rfl
    · show u.duration (MetricKind.maxLatency.eval t) = _
      rw [C45_max]
      congr 1
      refine foldr_max_least _ _ (List.mem_map_of_mem hv) ?_ (Nat.zero_le _)
      intro w hw'
      obtain ⟨x, hx, rfl⟩ := List.mem_map.1 hw'
      have := hw x hx
      show max x 1 ≤ max v 1
      omega
  | .plain .first =>
    refine ⟨fun h => ?_, fun v rest h => ?_⟩ <;>
    · show u.duration (MetricKind.first.eval t) = _
      rw [first_eval, h]
  | .plain .bytes =>
    intro h
    show u.size (MetricKind.bytes.eval t) = _
    rw [C45_bytes, Nat.mod_eq_of_lt h]
  | .plain .maxGauge =>
    refine ⟨fun h => ?_, fun v hv hw => ?_⟩
    · show toString (MetricKind.maxGauge.eval t) = _
      rw [C45_max_gauge, h]; rfl
    · show toString (MetricKind.maxGauge.eval t) = _
      rw [C45_max_gauge, foldr_max_least _ v hv hw (Nat.zero_le _)]
  | .avg =>
    intro h
    show u.duration (AvgMetric.eval t).value = _
    rw [C45_avg]
    have hl : ∀ l : List Nat, l.length ≤ (l.map (max · 1)).sum := by
      intro l
      induction l with
      | nil => simp
      | cons a l ih => simp only [List.length_cons, List.map_cons, List.sum_cons]; omega
    have := hl t.vals
    simp only [AvgMetric.value, Nat.mod_eq_of_lt h, Nat.mod_eq_of_lt (Nat.lt_of_le_of_lt this h)]
  | .percentile q =>
    refine ⟨fun h => ?_, fun hne hq hb hmono hfit => ?_⟩
    · show u.duration ((Percentile.eval cfg t).quantile cfg _).floor.toNat = _
      rw [percentile_nothing cfg t h]; rfl
    · obtain ⟨v, h1, h2⟩ := Percentile.C45_percentile cfg hmono hb t hfit ((q : Rat) / 100) ⟨by positivity, by
        rw [div_le_one (by norm_num)]; exact_mod_cast hq⟩ hne
      refine ⟨v, h1, ?_⟩
      show u.duration ((Percentile.eval cfg t).quantile cfg _).floor.toNat = _
      rw [h2]

/-! ### The metrics of a node -/

variable (kinds : String → OwnKind)

theorem named_own (rs : List (String × Nat × List Nat)) (name : String) :
    named (own u cfg) (rs.map (ownMetric cfg kinds)) name =
      ((rs.filter fun r => r.1 == name).map (·.2.2)).map fun vs => (name, (kinds name).eval cfg (.recorded vs)) := by
  induction rs with
  | nil => rfl
  | cons r rs ih =>
    unfold named at ih ⊢
    simp only [List.map_cons]
    by_cases h : r.1 = name
    · rw [List.filter_cons_of_pos (by show (r.1 == name) = true; simpa using h),
        List.filter_cons_of_pos (by show (r.1 == name) = true; simpa using h), ih]
      subst h; rfl
    · rw [List.filter_cons_of_neg (by show ¬ (r.1 == name) = true; simpa using h),
        List.filter_cons_of_neg (by show ¬ (r.1 == name) = true; simpa using h), ih]

theorem own_plain (tasks : Nat) (hb : tasks ≤ 2 ^ 64) (rec : Nat → Path → List (String × Nat × List Nat)) (y : Path) :
    Plain (own u cfg) (fun v => (v.1, v.2.kind)) tasks (fun i y => (rec i y).map (ownMetric cfg kinds)) y where
  bound := hb
  labels := by
    intro i _ m hm l hl
    obtain ⟨r, -, rfl⟩ := List.mem_map.1 hm
    cases hl
  kinds := by
    intro i _ j _ m hm n hn e
    obtain ⟨r, -, rfl⟩ := List.mem_map.1 hm
    obtain ⟨r', -, rfl⟩ := List.mem_map.1 hn
    have e : r.1 = r'.1 := e
    simp only [ownMetric, kind_eval, e]

/-- **C69** for the metrics of the library. The partitions of the tasks of a stage recorded `rec`, under names that stand for one type
of metric each, and the metrics are shown per task. Then next to a node there is a value for each name and each task that runs the
node and has the metric, and no other. It is the minimum, maximum, average, percentile, first value or sum over all that the
partitions of this task recorded under this name for this node. -/
theorem C69_own_metrics {Row : Type} (tasks : Nat) (hb : tasks ≤ 2 ^ 64) (c : Plan Row)
    (rec : Nat → Path → List (String × Nat × List Nat)) (y : Path)
    (order : List (Metric (String × Own)) → List (Metric (String × Own))) (ho : ∀ l, (order l).Perm l) :
    ∃ ls, format (own u cfg) order (expected .perTask tasks c (fun i y => (rec i y).map (ownMetric cfg kinds)) y) =
        .ok (text (own u cfg) ls) ∧
      (∀ name t, (∃ l ∈ ls, l.name = name ∧ t ∈ l.values.map (·.1)) ↔
        ∃ i, t = some i ∧ i < tasks ∧ Runs ⟨i, tasks⟩ c y ∧ ∃ r ∈ rec i y, r.1 = name) ∧
      ∀ l ∈ ls, (l.values.map (·.1)).Nodup ∧ ∀ i v, (some i, v) ∈ l.values →
        ∃ s, (own u cfg).print v = u.custom l.name s ∧ Shows u cfg (kinds l.name) (recordedIn (rec i y) l.name) s := by
  obtain ⟨ls, h1, h2, h3⟩ := C69_per_task_partial (own u cfg) (own_lawful u cfg) tasks c
    (fun i y => (rec i y).map (ownMetric cfg kinds)) y (own_plain u cfg kinds tasks hb rec y) order ho
  simp only [named_own, total_own] at h3
  refine ⟨ls, h1, fun name t => ⟨?_, ?_⟩, fun l hl => ⟨?_, fun i v hv => ?_⟩⟩
  · rintro ⟨l, hl, e, ht⟩
    obtain ⟨⟨t', v⟩, hx, rfl⟩ := List.mem_map.1 ht
    obtain ⟨i, e1, hi, hr, ⟨m, hm, e2, -⟩, -⟩ := (h3 name t' v).1 ⟨l, hl, e, hx⟩
    obtain ⟨r, hr', rfl⟩ := List.mem_map.1 hm
    exact ⟨i, e1, hi, hr, r, hr', e2⟩
  · rintro ⟨i, rfl, hi, hr, r, hr', e⟩
    obtain ⟨l, hl, e', hx⟩ := (h3 name (some i) _).2 ⟨i, rfl, hi, hr, ⟨_, List.mem_map_of_mem hr', e, rfl⟩, (by
      intro h
      have : r ∈ (rec i y).filter fun r => r.1 == name := List.mem_filter.2 ⟨hr', by simpa using e⟩
      rw [List.map_eq_nil_iff.1 h] at this
      cases this), rfl⟩
    exact ⟨l, hl, e', List.mem_map_of_mem hx⟩
  · have := h2.tasks l hl
    refine List.pairwise_map.2 (this.imp ?_)
    rintro ⟨a, _⟩ ⟨b, _⟩ h e
    simp only at e
    subst e
    cases a <;> simp [Before] at h
  · obtain ⟨i', e, -, -, -, -, rfl⟩ := (h3 l.name (some i) v).1 ⟨l, hl, rfl, hv⟩
    cases e
    refine ⟨_, rfl, ?_⟩
    have := shows_eval u cfg (kinds l.name) (inTurn (.recorded []) (((rec i y).filter fun r => r.1 == l.name).map (·.2.2)))
    rw [inTurn_vals] at this
    simpa only [AggTree.vals, List.nil_append, recordedIn, List.flatMap] using this

open Classical in
/-- **C69** for the metrics of the library, not shown per task: one value for each name, over all that the tasks that run the node
recorded. -/
theorem C69_own_metrics_aggregated {Row : Type} (tasks : Nat) (hb : tasks ≤ 2 ^ 64) (c : Plan Row)
    (rec : Nat → Path → List (String × Nat × List Nat)) (y : Path)
    (order : List (Metric (String × Own)) → List (Metric (String × Own))) (ho : ∀ l, (order l).Perm l) :
    ∃ ls, format (own u cfg) order (expected .aggregated tasks c (fun i y => (rec i y).map (ownMetric cfg kinds)) y) =
        .ok (text (own u cfg) ls) ∧
      (∀ name, (∃ l ∈ ls, l.name = name) ↔ ∃ i < tasks, Runs ⟨i, tasks⟩ c y ∧ ∃ r ∈ rec i y, r.1 = name) ∧
      ∀ l ∈ ls, ∃ v s, l.values = [(none, v)] ∧ (own u cfg).print v = u.custom l.name s ∧
        Shows u cfg (kinds l.name) (((List.range tasks).filter fun i => decide (Runs ⟨i, tasks⟩ c y)).flatMap fun i => recordedIn (rec i y) l.name) s := by
  obtain ⟨ls, h1, h2, h3⟩ := C69_aggregated_partial (own u cfg) (own_lawful u cfg) tasks c
    (fun i y => (rec i y).map (ownMetric cfg kinds)) y (own_plain u cfg kinds tasks hb rec y) order ho
  have e0 : expected .aggregated tasks c (fun i y => (rec i y).map (ownMetric cfg kinds)) y =
      (((List.range tasks).filter fun i => decide (Runs ⟨i, tasks⟩ c y)).flatMap fun i => rec i y).map (ownMetric cfg kinds) := by
    unfold expected
    rw [List.map_flatMap]
    induction List.range tasks with
    | nil => rfl
    | cons i is ih =>
      rw [List.flatMap_cons, ih]
      by_cases hr : Runs ⟨i, tasks⟩ c y
      · rw [if_pos hr, List.filter_cons_of_pos (by simpa using hr), List.flatMap_cons]
        congr 1
        exact List.map_id' _
      · rw [if_neg hr, List.filter_cons_of_neg (by simpa using hr)]; rfl
  simp only [e0, named_own, total_own] at h3
  refine ⟨ls, h1, fun name => ⟨?_, ?_⟩, fun l hl => ?_⟩
  · rintro ⟨l, hl, e⟩
    obtain ⟨⟨t, v⟩, hx⟩ := List.exists_mem_of_ne_nil _ (h2.nonempty l hl)
    obtain ⟨-, ⟨i, hi, hr, m, hm, e2, -⟩, -⟩ := (h3 name t v).1 ⟨l, hl, e, hx⟩
    obtain ⟨r, hr', rfl⟩ := List.mem_map.1 hm
    exact ⟨i, hi, hr, r, hr', e2⟩
  · rintro ⟨i, hi, hr, r, hr', e⟩
    obtain ⟨l, hl, e', -⟩ := (h3 name none _).2 ⟨rfl, ⟨i, hi, hr, _, List.mem_map_of_mem hr', e, rfl⟩, (by
      intro h
      have : r ∈ (((List.range tasks).filter fun i => decide (Runs ⟨i, tasks⟩ c y)).flatMap fun i => rec i y).filter fun r => r.1 == name :=
        List.mem_filter.2 ⟨List.mem_flatMap.2 ⟨i, List.mem_filter.2 ⟨List.mem_range.2 hi, by simpa using hr⟩, hr'⟩, by simpa using e⟩
      rw [List.map_eq_nil_iff.1 h] at this
      cases this), rfl⟩
    exact ⟨l, hl, e'⟩
  · have hall' : ∀ x ∈ l.values, x = (none, (l.name, (kinds l.name).eval cfg (inTurn (.recorded [])
        (((((List.range tasks).filter fun i => decide (Runs ⟨i, tasks⟩ c y)).flatMap fun i => rec i y).filter fun r => r.1 == l.name).map (·.2.2))))) := by
      rintro ⟨t, v⟩ hx
      obtain ⟨rfl, -, -, rfl⟩ := (h3 l.name t v).1 ⟨l, hl, rfl, hx⟩
      rfl
    have hv : ∃ v, l.values = [(none, v)] ∧ v = (l.name, (kinds l.name).eval cfg (inTurn (.recorded [])
        (((((List.range tasks).filter fun i => decide (Runs ⟨i, tasks⟩ c y)).flatMap fun i => rec i y).filter fun r => r.1 == l.name).map (·.2.2)))) := by
      have ht := h2.tasks l hl
      have hne := h2.nonempty l hl
      match hl' : l.values with
      | [] => exact absurd hl' hne
      | [x] =>
        rw [hl'] at hall'
        have := hall' x (by simp)
        exact ⟨_, by rw [this], rfl⟩
      | x :: x' :: xs =>
        rw [hl'] at hall' ht
        have a := hall' x (by simp)
        have b := hall' x' (by simp)
        have := (List.pairwise_cons.1 ht).1 x' (by simp)
        rw [a, b] at this
        cases this
    obtain ⟨v, e, rfl⟩ := hv
    refine ⟨_, _, e, rfl, ?_⟩
    have hv : (inTurn (.recorded []) (((((List.range tasks).filter fun i => decide (Runs ⟨i, tasks⟩ c y)).flatMap fun i =>
        rec i y).filter fun r => r.1 == l.name).map (·.2.2))).vals =
        ((List.range tasks).filter fun i => decide (Runs ⟨i, tasks⟩ c y)).flatMap fun i => recordedIn (rec i y) l.name := by
      rw [inTurn_vals, show (AggTree.recorded []).vals = [] from rfl, List.nil_append, ← List.flatMap_def, List.filter_flatMap,
        List.flatMap_assoc]
      rfl
    rw [← hv]
    exact shows_eval u cfg (kinds l.name) _

/-- **C69 is false** of two types of metrics of the library under one name: there is no panic, but what the second one recorded is
left out, and which is the second one depends on the order in which the metrics come. -/
theorem C69_two_own_kinds_false : ∃ a b : Metric (String × Own), taskLabel a = some "0" ∧ taskLabel b = some "0" ∧
    format (own u cfg) id [a, b] = .ok ("x={0:" ++ u.custom "x" (u.duration 5) ++ "}") ∧
    format (own u cfg) id [b, a] = .ok ("x={0:" ++ u.custom "x" (u.size 7) ++ "}") :=
  ⟨⟨("x", .plain .maxLatency 5), none, [("task_id", "0")]⟩, ⟨("x", .plain .bytes 7), none, [("task_id", "0")]⟩, by decide, by decide,
    by
      show Except.ok _ = Except.ok _
      rw [id, List.mergeSort_of_pairwise (by simp)]
      rfl,
    by
      show Except.ok _ = Except.ok _
      rw [id, List.mergeSort_of_pairwise (by simp)]
      rfl⟩

namespace OwnDemo

/-- Two tasks of two partitions each: latencies, their percentile, and bytes. -/
def rec : Nat → Path → List (String × Nat × List Nat)
  | 0, _ => [("lat", 0, [5, 0]), ("bytes", 0, [100]), ("lat", 1, [9]), ("bytes", 1, [20, 3])]
  | _, _ => [("lat", 0, []), ("bytes", 0, [7]), ("lat", 1, [2])]

def types : String → OwnKind
  | "bytes" => .plain .bytes
  | _ => .plain .maxLatency

def units : Units := ⟨fun n => toString n ++ "ns", fun n => toString n ++ " B", fun _ s => s, 20⟩

def config : Percentile.Config := ⟨fun n => n, fun k => k, 2048⟩

end OwnDemo

open OwnDemo in
/-- Non-vacuity: the value of the first task is its greatest latency, and its bytes are added up. -/
example : ∃ ls, format (own units config) id (expected .perTask 2 (.node (.leaf [[1], [2]]) (.desired 2) []) (fun i y => (rec i y).map
      (ownMetric config types)) []) = .ok (text (own units config) ls) ∧
    ∀ l ∈ ls, ∀ v, (some 0, v) ∈ l.values → (l.name = "lat" → (own units config).print v = "9ns") ∧
      (l.name = "bytes" → (own units config).print v = "123 B") := by
  obtain ⟨ls, h1, -, h3⟩ := C69_own_metrics units config types 2 (by decide) (.node (.leaf [[1], [2]]) (.desired 2) [] : Plan Nat) rec [] id
    fun _ => .rfl
  refine ⟨ls, h1, fun l hl v hv => ⟨fun e => ?_, fun e => ?_⟩⟩
  · obtain ⟨s, es, hs⟩ := (h3 l hl).2 0 v hv
    rw [e] at hs
    rw [es, show s = units.duration (max 9 1) from hs.2 9 (by decide) (by decide)]; show toString 9 ++ "ns" = _; decide
  · obtain ⟨s, es, hs⟩ := (h3 l hl).2 0 v hv
    rw [e] at hs
    rw [es, show s = units.size 123 from hs (by decide)]; show toString 123 ++ " B" = _; decide

end DD.MetricsDisplay
