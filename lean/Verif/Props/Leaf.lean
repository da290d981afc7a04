/-
C17, C18: scaled file scans and scaled leaves return every row exactly once.
-/
import Verif.Model.Leaf
import Mathlib.Data.List.Perm.Basic
import Mathlib.Data.List.Nodup

namespace DD.Leaf

variable {α F : Type}

/-! ### Helpers -/

theorem flatten_set_push (m : List (List α)) (i : Nat) (e : α) (h : i < m.length) :
    ((m.set i (m.getD i [] ++ [e])).flatten).Perm (m.flatten ++ [e]) := by
  induction m generalizing i with
  | nil => simp at h
  | cons a t ih =>
    cases i with
    | zero => 
      simp only [List.set_cons_zero, List.getD_cons_zero, List.flatten_cons, List.append_assoc]
      exact List.Perm.append_left _ List.perm_append_comm
    | succ i =>
      simp only [List.set_cons_succ, List.getD_cons_succ, List.flatten_cons, List.append_assoc]
      exact List.Perm.append_left _ (ih i (by simpa using h))

/-- How many of `n` consecutive indices starting at `idx` are `j` modulo `T`. -/
def hits (T j idx n : Nat) : Nat := ((List.range n).filter fun i => (idx + i) % T == j).length

theorem hits_zero (T j idx : Nat) : hits T j idx 0 = 0 := rfl

theorem hits_succ (T j idx n : Nat) :
    hits T j idx (n + 1) = (if idx % T = j then 1 else 0) + hits T j (idx + 1) n := by
  unfold hits
  rw [List.range_succ_eq_map, List.filter_cons]
  simp only [Nat.add_zero, List.filter_map, List.length_map, Function.comp_def]
  have e : (fun i => (idx + Nat.succ i) % T == j) = fun i => (idx + 1 + i) % T == j := by
    funext i
    rw [show idx + Nat.succ i = idx + 1 + i from by omega]
  rw [e]
  by_cases h : idx % T = j
  · simp only [h, beq_self_eq_true, if_true, List.length_cons, List.length_map]; omega
  · simp only [beq_iff_eq, h, if_false, List.length_map]; omega

theorem spread_ok : ∀ (xs : List α) (g : List (List α)) (idx : Nat), (xs = [] ∨ 0 < g.length) →
    ∃ r, spread g idx xs = .ok r ∧ r.length = g.length ∧ r.flatten.Perm (g.flatten ++ xs)
      ∧ ∀ j, j < g.length → (r.getD j []).length = (g.getD j []).length + hits g.length j idx xs.length
  | [], g, idx, _ => ⟨g, rfl, rfl, by simp, fun j _ => by simp [hits]⟩
  | x :: xs, g, idx, h => by
    have hg : 0 < g.length := by simpa using h
    have hi : idx % g.length < g.length := Nat.mod_lt _ hg
    simp only [spread, pushMod]
    rw [if_neg (by omega)]
    obtain ⟨r, r1, r2, r3, r4⟩ := spread_ok xs
      (g.set (idx % g.length) (g.getD (idx % g.length) [] ++ [x])) (idx + 1) (.inr (by simpa using hg))
    refine ⟨r, r1, by simpa using r2, ?_, fun j hj => ?_⟩
    · refine r3.trans (((flatten_set_push g _ x hi).append_right _).trans ?_)
      simp
    · rw [r4 j (by simpa using hj)]
      simp only [List.length_set, List.length_cons, hits_succ]
      simp only [List.getD_eq_getElem?_getD, List.getElem?_set]
      split
      · rename_i heq
        subst heq
        simp [hi]; omega
      · simp

theorem hits_block (T : Nat) (hT : 0 < T) (j : Nat) (hj : j < T) : ∀ idx, hits T j idx T = 1 := by
  intro idx
  unfold hits
  have : ∃ i0 < T, (idx + i0) % T = j ∧ ∀ i < T, (idx + i) % T = j → i = i0 := by
    refine ⟨(j + T - idx % T) % T, Nat.mod_lt _ hT, ?_, fun i hi h => ?_⟩
    · have hm := Nat.mod_lt idx hT
      rw [Nat.add_mod, Nat.mod_mod]
      by_cases hc : idx % T ≤ j
      · have : (j + T - idx % T) % T = j - idx % T := by
          rw [show j + T - idx % T = (j - idx % T) + T from by omega, Nat.add_mod_right]
          exact Nat.mod_eq_of_lt (by omega)
        rw [this, show idx % T + (j - idx % T) = j from by omega]
        exact Nat.mod_eq_of_lt hj
      · have : (j + T - idx % T) % T = j + T - idx % T := Nat.mod_eq_of_lt (by omega)
        rw [this, show idx % T + (j + T - idx % T) = j + T from by omega, Nat.add_mod_right]
        exact Nat.mod_eq_of_lt hj
    · have hm := Nat.mod_lt idx hT
      rw [Nat.add_mod, Nat.mod_eq_of_lt hi] at h
      by_cases hc : idx % T + i < T
      · rw [Nat.mod_eq_of_lt hc] at h
        rw [show j + T - idx % T = i + T from by omega, Nat.add_mod_right, Nat.mod_eq_of_lt hi]
      · rw [Nat.mod_eq_sub_mod (by omega), Nat.mod_eq_of_lt (by omega)] at h
        rw [show j + T - idx % T = i from by omega, Nat.mod_eq_of_lt hi]
  obtain ⟨i0, h0, h1, h2⟩ := this
  have : (List.range T).filter (fun i => (idx + i) % T == j) = [i0] := by
    apply List.perm_singleton.mp
    refine (List.perm_ext_iff_of_nodup (List.nodup_range.filter _) (by simp)).mpr fun a => ?_
    simp only [List.mem_filter, List.mem_range, beq_iff_eq, List.mem_singleton]
    exact ⟨fun h => h2 a h.1 h.2, fun h => h ▸ ⟨h0, h1⟩⟩
  rw [this]; rfl

theorem hits_add (T j idx a b : Nat) : hits T j idx (a + b) = hits T j idx a + hits T j (idx + a) b := by
  induction a generalizing idx with
  | zero => simp [hits_zero]
  | succ a ih =>
    rw [show a + 1 + b = (a + b) + 1 from by omega, hits_succ, hits_succ, ih]
    rw [show idx + 1 + a = idx + (a + 1) from by omega]; omega

theorem hits_mul (T : Nat) (hT : 0 < T) (j : Nat) (hj : j < T) : ∀ q idx, hits T j idx (T * q) = q
  | 0, idx => by simp [hits_zero]
  | q + 1, idx => by
    rw [Nat.mul_succ, hits_add, hits_mul T hT j hj q, hits_block T hT j hj]

theorem hits_small (T j r : Nat) (hr : r ≤ T) (hj : j < T) :
    hits T j 0 r = if j < r then 1 else 0 := by
  unfold hits
  simp only [Nat.zero_add]
  have e : (List.range r).filter (fun i => i % T == j) = (List.range r).filter (fun i => i == j) := by
    refine List.filter_congr fun i hi => ?_
    rw [Nat.mod_eq_of_lt (Nat.lt_of_lt_of_le (List.mem_range.mp hi) hr)]
  rw [e]
  split
  · rename_i h
    have : (List.range r).filter (fun i => i == j) = [j] := by
      apply List.perm_singleton.mp
      refine (List.perm_ext_iff_of_nodup (List.nodup_range.filter _) (by simp)).mpr fun a => ?_
      simp only [List.mem_filter, List.mem_range, beq_iff_eq, List.mem_singleton]
      exact ⟨fun h => h.2, fun h' => ⟨h' ▸ h, h'⟩⟩
    rw [this]; rfl
  · rename_i h
    rw [List.length_eq_zero_iff, List.filter_eq_nil_iff]
    intro a ha
    have := List.mem_range.mp ha
    simp; omega

/-- Task `j` of `T` gets `n / T` of `n` groups dealt out in turn, one more if `j < n % T`. -/
theorem hits_eq (T j n : Nat) (hT : 0 < T) (hj : j < T) :
    hits T j 0 n = n / T + (if j < n % T then 1 else 0) := by
  have h : n = T * (n / T) + n % T := (Nat.div_add_mod n T).symm
  conv_lhs => rw [h]
  rw [hits_add, hits_mul T hT j hj]
  congr 1
  have : hits T j (0 + T * (n / T)) (n % T) = hits T j 0 (n % T) := by
    unfold hits
    congr 1
    refine List.filter_congr fun i _ => ?_
    rw [Nat.zero_add, Nat.zero_add, Nat.mul_add_mod]
  rw [this]
  exact hits_small T j _ (Nat.le_of_lt (Nat.mod_lt _ hT)) hj

theorem flatten_map_flatMap (rows : F → List α) (g : List (List F)) :
    (g.map (·.flatMap rows)).flatten = g.flatten.flatMap rows := by
  induction g with
  | nil => rfl
  | cons a b ih => simp only [List.map_cons, List.flatten_cons, List.flatMap_append, ih]

theorem flatten_map_rows (rows : F → List α) (scans : List (List (List F))) :
    (scans.map fun s => s.map (·.flatMap rows)).flatten.flatten
      = (scans.flatten.flatten).flatMap rows := by
  induction scans with
  | nil => rfl
  | cons s t ih =>
    simp only [List.map_cons, List.flatten_cons, List.flatten_append, List.flatMap_append, ih,
      flatten_map_flatMap]

/-! ### C17 -/

/-- The number of file groups that are dealt out. -/
def groupCount (declared : Bool) (repartition : Nat → Option (List (List F))) (groups : List (List F))
    (partitionCount tasks : Nat) : Nat :=
  if declared then partitionCount * tasks
  else ((repartition (partitionCount * tasks)).getD groups).length

/-- Contract of DataFusion's `FileGroupPartitioner` (external): regrouping reads the same data. -/
def Regroups (rows : F → List α) (groups : List (List F)) (r : List (List F)) : Prop :=
  (r.flatten.flatMap rows).Perm (groups.flatten.flatMap rows)

/-- **C17**, assignment: for every list of file groups and every `T ≥ 1`, the scans of the `T` tasks read
together exactly the rows of the original scan. -/
theorem C17_every_file_once (rows : F → List α) (declared : Bool)
    (repartition : Nat → Option (List (List F))) (groups : List (List F)) (partitionCount tasks : Nat)
    (hT : 0 < tasks) (hp : declared = true → groups.flatten ≠ [] → 0 < partitionCount)
    (hr : ∀ t r, repartition t = some r → Regroups rows groups r) :
    ∃ scans, fileScans declared repartition groups partitionCount tasks = .ok scans
      ∧ scans.length = tasks
      ∧ ((scans.flatten.flatten).flatMap rows).Perm (groups.flatten.flatMap rows)
      ∧ ∀ j < tasks, (scans.getD j []).length
          = groupCount declared repartition groups partitionCount tasks / tasks
            + (if j < groupCount declared repartition groups partitionCount tasks % tasks then 1 else 0)
      := by
  have main : ∀ (rb : List (List F)), rb.length = groupCount declared repartition groups partitionCount tasks →
      (rb.flatten.flatMap rows).Perm (groups.flatten.flatMap rows) →
      ∃ scans, spread (List.replicate tasks []) 0 rb = .ok scans ∧ scans.length = tasks
      ∧ ((scans.flatten.flatten).flatMap rows).Perm (groups.flatten.flatMap rows)
      ∧ ∀ j < tasks, (scans.getD j []).length
          = groupCount declared repartition groups partitionCount tasks / tasks
            + (if j < groupCount declared repartition groups partitionCount tasks % tasks then 1 else 0) := by
    intro rb hlen hperm
    obtain ⟨s, s1, s2, s3, s4⟩ := spread_ok rb (List.replicate tasks []) 0 (.inr (by simpa using hT))
    refine ⟨s, s1, by simpa using s2, ?_, fun j hj => ?_⟩
    · have : s.flatten.Perm rb := by simpa using s3
      exact (this.flatten.flatMap_right rows).trans hperm
    · rw [s4 j (by simpa using hj)]
      simp only [List.length_replicate, hlen]
      rw [hits_eq _ _ _ hT hj]
      simp [List.getD_eq_getElem?_getD, hj]
  unfold fileScans
  cases declared with
  | false =>
    refine main _ rfl ?_
    cases h : repartition (partitionCount * tasks) with
    | none => exact List.Perm.refl _
    | some r => exact hr _ r h
  | true =>
    have hpos : groups.flatten = [] ∨ 0 < (List.replicate (partitionCount * tasks) ([] : List F)).length := by
      by_cases hg : groups.flatten = []
      · exact .inl hg
      · refine .inr ?_
        simpa using Nat.mul_pos (hp rfl hg) hT
    obtain ⟨g, g1, g2, g3, _⟩ := spread_ok groups.flatten (List.replicate (partitionCount * tasks) []) 0 hpos
    obtain ⟨s, hs⟩ := main g (by simpa [groupCount] using g2) (List.Perm.flatMap_right rows (by simpa using g3))
    refine ⟨s, ?_, hs.2⟩
    show (do let rebalanced ← rebalanceRoundRobin groups.flatten (partitionCount * tasks); _) = _
    unfold rebalanceRoundRobin
    rw [g1]
    exact hs.1

theorem tryNew_ok (original : Parts α) (variants : List (Parts α)) (n : Nat) (hne : variants ≠ [])
    (h : ∀ v ∈ variants, v.length = n) :
    DistLeaf.tryNew original variants = .ok ⟨original, n, variants⟩ := by
  cases variants with
  | nil => exact absurd rfl hne
  | cons v vs =>
    have hv := h v (List.mem_cons_self ..)
    simp only [DistLeaf.tryNew]
    rw [if_pos, hv]
    rw [List.all_eq_true]
    intro w hw
    simp [h w (List.mem_cons_of_mem _ hw), hv]

/-- **C17**, uniform partition counts or an error: scaling to `T ≥ 1` tasks succeeds exactly when the
number of file groups is a multiple of `T`; then all tasks expose the same number of partitions and
together read exactly the rows of the scan. -/
theorem C17_uniform_or_error (rows : F → List α) (declared : Bool)
    (repartition : Nat → Option (List (List F))) (groups : List (List F)) (partitionCount tasks : Nat)
    (hT : 0 < tasks) (hp : declared = true → groups.flatten ≠ [] → 0 < partitionCount)
    (hr : ∀ t r, repartition t = some r → Regroups rows groups r) :
    (tasks ∣ groupCount declared repartition groups partitionCount tasks →
      ∃ d, scaleUp rows declared repartition groups partitionCount tasks = .ok d
        ∧ d.variants.length = tasks
        ∧ d.partitions = groupCount declared repartition groups partitionCount tasks / tasks
        ∧ (∀ v ∈ d.variants, v.length = d.partitions)
        ∧ d.original = groups.map (·.flatMap rows)
        ∧ d.variants.flatten.flatten.Perm d.original.flatten)
    ∧ (¬ tasks ∣ groupCount declared repartition groups partitionCount tasks →
        scaleUp rows declared repartition groups partitionCount tasks
          = .error (.plan "different partition count in two variants")) := by
  obtain ⟨scans, h1, h2, h3, h4⟩ :=
    C17_every_file_once rows declared repartition groups partitionCount tasks hT hp hr
  generalize hG : groupCount declared repartition groups partitionCount tasks = G at *
  have hscale : scaleUp rows declared repartition groups partitionCount tasks
      = DistLeaf.tryNew (groups.map (·.flatMap rows)) (scans.map fun s => s.map (·.flatMap rows)) := by
    unfold scaleUp; rw [h1]; rfl
  rw [hscale]
  constructor
  · intro hd
    have hall : ∀ v ∈ (scans.map fun s => s.map (·.flatMap rows)), v.length = G / tasks := by
      intro v hv
      obtain ⟨s, hs, rfl⟩ := List.mem_map.mp hv
      obtain ⟨j, hj, rfl⟩ := List.mem_iff_getElem.mp hs
      have := h4 j (by omega)
      rw [Nat.mod_eq_zero_of_dvd hd] at this
      simpa [hj] using this
    have hne : (scans.map fun s => s.map (·.flatMap rows)) ≠ [] := by
      intro hn
      rw [List.map_eq_nil_iff] at hn
      rw [hn] at h2; simp at h2; omega
    refine ⟨_, tryNew_ok _ _ _ hne hall, by simpa using h2, rfl, hall, rfl, ?_⟩
    have e1 : (scans.map fun s => s.map (·.flatMap rows)).flatten.flatten
        = (scans.flatten.flatten).flatMap rows := flatten_map_rows rows scans
    have e2 : (groups.map (·.flatMap rows)).flatten = groups.flatten.flatMap rows :=
      flatten_map_flatMap rows groups
    show ((scans.map fun s => s.map (·.flatMap rows)).flatten.flatten).Perm _
    rw [e1, e2]; exact h3
  · intro hd
    have hmod : 0 < G % tasks := Nat.pos_of_ne_zero fun h => hd (Nat.dvd_of_mod_eq_zero h)
    have hlt := Nat.mod_lt G hT
    have a0 := h4 0 hT
    have al := h4 (tasks - 1) (by omega)
    rw [if_pos hmod] at a0
    rw [if_neg (by omega)] at al
    cases scans with
    | nil => simp at h2; omega
    | cons s t =>
      simp only [List.map_cons, DistLeaf.tryNew]
      rw [if_neg]
      intro hall
      rw [List.all_eq_true] at hall
      have h1t : tasks - 1 ≠ 0 := by
        intro h
        have : tasks = 1 := by omega
        subst this; simp [Nat.mod_one] at hmod
      obtain ⟨i, hi⟩ : ∃ i, tasks - 1 = i + 1 := ⟨tasks - 2, by omega⟩
      have hit : i < t.length := by simp at h2; omega
      have := hall (t[i].map (·.flatMap rows)) (List.mem_map.mpr ⟨t[i], List.getElem_mem hit, rfl⟩)
      rw [hi] at al
      simp [hit] at this al a0
      omega

/-- With a declared output partitioning scaling always succeeds. -/
theorem C17_declared_always_ok (rows : F → List α) (repartition : Nat → Option (List (List F)))
    (groups : List (List F)) (partitionCount tasks : Nat)
    (hT : 0 < tasks) (hp : groups.flatten ≠ [] → 0 < partitionCount)
    (hr : ∀ t r, repartition t = some r → Regroups rows groups r) :
    ∃ d, scaleUp rows true repartition groups partitionCount tasks = .ok d
      ∧ d.variants.length = tasks ∧ d.partitions = partitionCount := by
  obtain ⟨d, h1, h2, h3, _⟩ := (C17_uniform_or_error rows true repartition groups partitionCount tasks hT
    (fun _ => hp) hr).1 (by simp [groupCount, Nat.dvd_mul_left])
  refine ⟨d, h1, h2, ?_⟩
  rw [h3]
  simp [groupCount, Nat.mul_div_cancel _ hT]

/-- Finding: a scan of three groups that cannot be regrouped (for instance because its files already have
ranges) cannot run on two tasks: planning the query fails. -/
theorem C17_indivisible_fails :
    scaleUp (fun f : Nat => [f]) false (fun _ => none) [[1], [2], [3]] 3 2
      = .error (.plan "different partition count in two variants") := by rfl

/-- **C17** (task count of a scan) A file scan asks for the smallest number of tasks whose partitions hold all its bytes when
no partition takes more than `bytesPerPartition`. -/
theorem C17_fewest_sufficient_tasks (sizes : List (List Nat)) (bytesPerPartition targetPartitions t : Nat)
    (h : desiredTaskCount sizes bytesPerPartition targetPartitions = .ok t) (t' : Nat) :
    t ≤ t' ↔ sizes.flatten.sum ≤ t' * targetPartitions * bytesPerPartition := by
  have key : ∀ a b n : Nat, 0 < b → (divCeil a b ≤ n ↔ a ≤ n * b) := by
    intro a b n hb
    unfold divCeil
    rw [← Nat.lt_succ_iff, Nat.div_lt_iff_lt_mul hb, Nat.succ_mul]
    omega
  unfold desiredTaskCount at h
  split at h
  · simp at h
  · rename_i hz
    simp only [not_or] at hz
    simp only [Except.ok.injEq] at h
    rw [← h, key _ _ _ (by omega), key _ _ _ (by omega)]

/-- Non-vacuity: 2500 bytes, 300 per partition, 4 partitions per task: three tasks. -/
example : desiredTaskCount [[1000, 500], [1000]] 300 4 = .ok 3 := by rfl

/-- Finding: a desired task count of zero (a scan of empty files) makes scaling panic. -/
theorem C17_zero_tasks_panics :
    desiredTaskCount [[0, 0]] 1024 4 = .ok 0
    ∧ scaleUp (fun f : Nat => [f]) false (fun _ => none) [[1]] 1 0
        = .error (.panic "remainder with a divisor of zero") := by
  constructor <;> rfl

/-- Finding: the declared partitioning is not kept. Files are dealt out one by one, so files of the same
declared partition end up in different partitions of different tasks: here the declared partition 0 holds
files 10 and 11, which land in two different tasks. -/
theorem C17_declared_partitioning_lost :
    fileScans true (fun _ => none) [[10, 11], [20]] 2 2 = .ok [[[10], [20]], [[11], []]] := by rfl

/-- Non-vacuity: five files in three groups, over two tasks, regrouped by an arbitrary regrouper. -/
example : (scaleUp (fun f : Nat => [f, f]) false (fun _ => some [[1], [2], [3, 4], [5]]) [[1, 2], [3], [4, 5]] 2 2).map
      (fun d => (d.partitions, d.variants)) = .ok (2, [[[1, 1], [3, 3, 4, 4]], [[2, 2], [5, 5]]]) := by rfl

/-! ### C18 -/

/-- Everything the `tasks` tasks return when each executes all advertised partitions. -/
def allRows (d : DistLeaf α) (tasks : Nat) : Except Err (List (List (List α))) :=
  (List.range tasks).mapM fun t => (List.range d.partitions).mapM fun p => d.execute ⟨t, tasks⟩ p

theorem mapM_range_exec (v : Parts α) : ∀ (n : Nat), n = v.length →
    (List.range n).mapM (execLeaf v) = .ok v := by
  intro n hn
  subst hn
  have key : ∀ (l : List Nat) (f : Nat → List α), (∀ i ∈ l, execLeaf v i = .ok (f i)) →
      l.mapM (execLeaf v) = .ok (l.map f) := by
    intro l f
    induction l with
    | nil => intro _; rfl
    | cons a t ih =>
      intro h
      rw [List.mapM_cons, h a (List.mem_cons_self ..), ih fun i hi => h i (List.mem_cons_of_mem _ hi)]
      rfl
  rw [key (List.range v.length) (fun i => v.getD i []) (fun i hi => by
    have hi := List.mem_range.mp hi
    simp [execLeaf, hi])]
  congr 1
  apply List.ext_getElem
  · simp
  · intro i h1 h2; simp [h2]

theorem mapM_range_variants (vs : List (Parts α)) (f : Nat → Except Err (Parts α)) :
    (∀ i (h : i < vs.length), f i = .ok vs[i]) → (List.range vs.length).mapM f = .ok vs := by
  intro h
  have key : ∀ (l : List Nat), (∀ i ∈ l, i < vs.length) → l.mapM f = .ok (l.map fun i => vs.getD i []) := by
    intro l
    induction l with
    | nil => intro _; rfl
    | cons a t ih =>
      intro hl
      have ha := hl a (List.mem_cons_self ..)
      rw [List.mapM_cons, h a ha, ih fun i hi => hl i (List.mem_cons_of_mem _ hi)]
      simp only [List.map_cons]
      have : vs.getD a [] = vs[a] := by simp [ha]
      rw [this]
      rfl
  rw [key _ fun i hi => List.mem_range.mp hi]
  congr 1
  apply List.ext_getElem
  · simp
  · intro i h1 h2; simp [h2]

theorem tryNew_inv {original : Parts α} {variants : List (Parts α)} {d : DistLeaf α}
    (h : DistLeaf.tryNew original variants = .ok d) :
    d.original = original ∧ d.variants = variants ∧ ∀ v ∈ variants, v.length = d.partitions := by
  cases variants with
  | nil => cases h
  | cons v vs =>
    simp only [DistLeaf.tryNew] at h
    split at h
    · rename_i hall
      cases h
      refine ⟨rfl, rfl, fun w hw => ?_⟩
      rcases List.mem_cons.mp hw with rfl | hw
      · rfl
      · simpa using List.all_eq_true.mp hall w hw
    · cases h

/-- **C18**, several tasks: executing every advertised partition in each of the `T ≥ 2` tasks of an
accepted leaf never fails and returns exactly the contents of the variants; so if the variants hold the
rows of the leaf, every row is returned exactly once. -/
theorem C18_all_rows_many_tasks_partial (original : Parts α) (variants : List (Parts α)) (d : DistLeaf α)
    (h : DistLeaf.tryNew original variants = .ok d) (hT : 2 ≤ variants.length)
    (hsame : variants.flatten.flatten.Perm original.flatten) :
    ∃ out, allRows d variants.length = .ok out ∧ out = variants
      ∧ out.flatten.flatten.Perm original.flatten := by
  obtain ⟨h1, h2, h3⟩ := tryNew_inv h
  refine ⟨variants, ?_, rfl, hsame⟩
  unfold allRows
  refine mapM_range_variants variants _ fun i hi => ?_
  have e : (fun p => d.execute ⟨i, variants.length⟩ p) = execLeaf variants[i] := by
    funext p
    simp only [DistLeaf.execute]
    rw [if_neg (by omega), h2, List.getElem?_eq_getElem hi]
  rw [e]
  exact mapM_range_exec _ _ (h3 _ (List.getElem_mem hi)).symm

/-- **C18**, a single task. Full claim: this holds for every accepted leaf. Missing, because false of the
code: `execute` runs the *original* leaf in a single task while the advertised partition count is the
variant's, so it is proved only when both have the same number of partitions, see
`C18_single_task_loses_rows`. -/
theorem C18_all_rows_single_task_partial (original variant : Parts α) (d : DistLeaf α)
    (h : DistLeaf.tryNew original [variant] = .ok d) (hlen : variant.length = original.length) :
    allRows d 1 = .ok [original] := by
  obtain ⟨h1, h2, h3⟩ := tryNew_inv h
  have hp := h3 variant (List.mem_singleton.mpr rfl)
  have e : (fun p => d.execute ⟨0, 1⟩ p) = execLeaf original := by
    funext p
    simp only [DistLeaf.execute, if_true, h1]
  show (do let x ← (List.range d.partitions).mapM fun p => d.execute ⟨0, 1⟩ p; _) = _
  rw [e, mapM_range_exec original d.partitions (by omega)]
  rfl

/-- **C18** on workers: the plan shipped for task `i` is the variant itself, so all rows are returned for
every number of tasks, including one. -/
theorem C18_all_rows_on_workers (original : Parts α) (variants : List (Parts α)) (d : DistLeaf α)
    (h : DistLeaf.tryNew original variants = .ok d)
    (hsame : variants.flatten.flatten.Perm original.flatten) :
    ∃ out, ((List.range variants.length).mapM fun t => do
        let v ← d.specialized t
        (List.range d.partitions).mapM (execLeaf v)) = .ok out
      ∧ out.flatten.flatten.Perm original.flatten := by
  obtain ⟨h1, h2, h3⟩ := tryNew_inv h
  refine ⟨variants, ?_, hsame⟩
  refine mapM_range_variants variants _ fun i hi => ?_
  simp only [DistLeaf.specialized, h2, List.getElem?_eq_getElem hi]
  exact mapM_range_exec _ _ (h3 _ (List.getElem_mem hi)).symm

/-- Finding: in a single task, a leaf whose only variant was regrouped into fewer partitions than the
original loses the rows of the remaining partitions, without any error. -/
theorem C18_single_task_loses_rows :
    ∃ d, DistLeaf.tryNew [[1], [2], [3]] [[[1, 2], [3]]] = .ok d
      ∧ allRows d 1 = .ok [[[1], [2]]] :=
  ⟨⟨[[1], [2], [3]], 2, [[[1, 2], [3]]]⟩, rfl, rfl⟩

/-- Finding: and with more partitions than the original it fails. -/
theorem C18_single_task_out_of_range :
    ∃ d, DistLeaf.tryNew [[1, 2]] [[[1], [2]]] = .ok d
      ∧ allRows d 1 = .error (.exec "no such partition") :=
  ⟨⟨[[1, 2]], 2, [[[1], [2]]]⟩, rfl, rfl⟩

/-- **C17 + C18**: a scaled scan executed by its `T` tasks returns the rows of the scan, for any scan
whose group count is a multiple of `T ≥ 2`. -/
theorem C18_scaled_scan (rows : F → List α) (declared : Bool)
    (repartition : Nat → Option (List (List F))) (groups : List (List F)) (partitionCount tasks : Nat)
    (hT : 2 ≤ tasks) (hp : declared = true → groups.flatten ≠ [] → 0 < partitionCount)
    (hr : ∀ t r, repartition t = some r → Regroups rows groups r)
    (hd : tasks ∣ groupCount declared repartition groups partitionCount tasks) :
    ∃ d out, scaleUp rows declared repartition groups partitionCount tasks = .ok d
      ∧ allRows d tasks = .ok out
      ∧ out.flatten.flatten.Perm (groups.map (·.flatMap rows)).flatten := by
  obtain ⟨d, h1, h2, h3, h4, h5, h6⟩ := (C17_uniform_or_error rows declared repartition groups
    partitionCount tasks (by omega) hp hr).1 hd
  have hnew : DistLeaf.tryNew d.original d.variants = .ok d := by
    refine (tryNew_ok _ _ d.partitions ?_ h4).trans rfl
    intro hn; rw [hn] at h2; simp at h2; omega
  obtain ⟨out, o1, _, o3⟩ := C18_all_rows_many_tasks_partial _ _ d hnew (by omega) h6
  exact ⟨d, out, h1, by rw [h2] at o1; exact o1, by rw [h5] at o3; exact o3⟩

/-- Non-vacuity: two tasks, two partitions each. -/
example : ∃ d, DistLeaf.tryNew [[1, 2], [3]] [[[1], [3]], [[2], []]] = .ok d
    ∧ allRows d 2 = .ok [[[1], [3]], [[2], []]] := ⟨⟨[[1, 2], [3]], 2, [[[1], [3]], [[2], []]]⟩, rfl, rfl⟩

end DD.Leaf
