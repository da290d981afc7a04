/-
**C44** for tasks that run in the coordinator's own process.
-/
import Verif.Model.InProcessMetrics
import Verif.Props.MetricsRewrite
import Verif.Props.Specialise

namespace DD.Metrics

open DD.Tree DD.Tree.Rec

variable {Row V : Type}

theorem flatMap_range_one {α : Type} {n i : Nat} (hi : i < n) {g : Nat → List α} (h : ∀ j < n, j ≠ i → g j = []) :
    (List.range n).flatMap g = g i := by
  induction n with
  | zero => cases hi
  | succ n ih =>
    rw [List.range_succ, List.flatMap_append, List.flatMap_singleton]
    by_cases hn : i = n
    · subst hn
      have : (List.range i).flatMap g = [] := by
        rw [List.flatMap_eq_nil_iff]
        intro j hj
        have := List.mem_range.mp hj
        exact h j (by omega) (by omega)
      rw [this, List.nil_append]
    · rw [ih (by omega) (fun j hj hne => h j (by omega) hne), h n (by omega) (fun e => hn e.symm), List.append_nil]

theorem Sharing.obj_task {s : Sharing} {i : Nat} {x : Path} (h : s.obj i x ≠ .coordinator x) : s.obj i x = .task i x := by
  unfold Sharing.obj at h ⊢
  split
  · next h' => rw [if_pos h'] at h; exact absurd rfl h
  · rfl

theorem Sharing.obj_coordinator {s : Sharing} {i : Nat} {x : Path} : s.obj i x = .coordinator x ↔ s.inProcess i = true ∧ s.kept x = true := by
  unfold Sharing.obj
  split
  · next h => simpa using h
  · next h => simpa using h

/-- With at most one task of the stage in the process, every task reports what it recorded itself. -/
theorem Sharing.recorded_one {s : Sharing} {N : Nat} (hone : ∀ i < N, ∀ j < N, s.inProcess i = true → s.inProcess j = true → i = j)
    (work : Nat → Path → List (Metric V)) {i : Nat} (hi : i < N) (x : Path) : s.recorded N work i x = work i x := by
  unfold Sharing.recorded
  by_cases ho : s.obj i x = .coordinator x
  · rw [ho]
    show (List.range N).flatMap _ = _
    rw [flatMap_range_one hi, if_pos ho]
    intro j hj hne
    rw [if_neg]
    intro hoj
    exact hne (hone j hj i hi (Sharing.obj_coordinator.mp hoj).1 (Sharing.obj_coordinator.mp ho).1)
  · rw [Sharing.obj_task ho]
    show (if s.obj i x = .task i x then _ else _) = _
    rw [if_pos (Sharing.obj_task ho)]

/-- What is expected only depends on what the tasks of the stage recorded. -/
theorem expected_congr (f : Format) (N : Nat) (c : Plan Row) {a b : Nat → Path → List (Metric V)} {x : Path}
    (h : ∀ i < N, a i x = b i x) : expected f N c a x = expected f N c b x := by
  unfold expected
  apply List.flatMap_congr
  intro i hi
  rw [h i (List.mem_range.mp hi)]

/-- **C44** At most one task of a stage runs in the coordinator's own process, and there it may record into the sets the
coordinator's copy of the plan has, at any of its nodes. Then the metrics displayed for a node are, for each task that runs it, what
the task recorded for it, each once: those found in the coordinator's copy are not counted again. -/
theorem C44_in_process [DecidableEq V] {ph : Bool} {N : Nat} {c : Plan Row} {I : Info Row} (h : Legal ph N (strip c) I)
    (hh : c.kind.isHead = true → c.children.length = 1) {hd : Head Row} (hfix : hd.insert c = .ok c)
    {addr : Path → Nat} (hdist : Distinct addr c) {query num : Nat} {store : Store V} (s : Sharing)
    {work : Nat → Path → List (Metric V)} (hwork : ∀ i < N, ∀ x, ¬ Runs ⟨i, N⟩ c x → work i x = [])
    (hone : ∀ i < N, ∀ j < N, s.inProcess i = true → s.inProcess j = true → i = j)
    (hstore : ∀ i < N, ∃ w r, hd.insert (share ⟨i, N⟩ c) = .ok w ∧ report w ⟨i, N⟩ (s.recorded N work i) = .ok r
      ∧ store ⟨query, num, i⟩ = some r) (f : Format) :
    ∃ l, stageRewrite f addr query num N store c = .ok l ∧ l.map (·.1) = nodes c
      ∧ ∀ x ms, (x, ms) ∈ l → shownOf ms (s.own N work x) = expected f N c work x := by
  refine ⟨_, C44_stage h hh hfix hdist hstore f, by rw [List.map_map]; exact List.map_id _, ?_⟩
  intro x ms hm
  obtain ⟨y, _, e⟩ := List.mem_map.mp hm
  cases e
  rw [expected_congr f N c fun i hi => Sharing.recorded_one hone work hi x]
  apply C44_displayed
  intro m hmo
  obtain ⟨i, hi, hmi⟩ := List.mem_flatMap.mp hmo
  have hi := List.mem_range.mp hi
  split at hmi
  · by_cases hr : Runs ⟨i, N⟩ c x
    · refine ⟨shownFor f i m, ?_, by cases f <;> exact ⟨rfl, rfl⟩⟩
      unfold expected
      exact List.mem_flatMap.mpr ⟨i, List.mem_range.mpr hi, by rw [if_pos hr]; exact List.mem_map_of_mem hmi⟩
    · rw [hwork i hi x hr] at hmi; cases hmi
  · cases hmi

/-- **C44 is false** for tasks of one stage that run in the coordinator's own process together, at every node whose set of metrics
they share, as those of file scans are: each of them reports what all of them recorded, so everything is displayed as often as there
are tasks. -/
theorem C44_in_process_false [DecidableEq V] {ph : Bool} {N : Nat} {c : Plan Row} {I : Info Row} (h : Legal ph N (strip c) I)
    (hh : c.kind.isHead = true → c.children.length = 1) {hd : Head Row} (hfix : hd.insert c = .ok c)
    {addr : Path → Nat} (hdist : Distinct addr c) {query num : Nat} {store : Store V} (s : Sharing)
    {work : Nat → Path → List (Metric V)} (hall : ∀ i < N, s.inProcess i = true)
    (hstore : ∀ i < N, ∃ w r, hd.insert (share ⟨i, N⟩ c) = .ok w ∧ report w ⟨i, N⟩ (s.recorded N work i) = .ok r
      ∧ store ⟨query, num, i⟩ = some r) :
    ∃ l, stageRewrite .aggregated addr query num N store c = .ok l ∧ l.map (·.1) = nodes c
      ∧ ∀ x ms, (x, ms) ∈ l → s.kept x = true → (∀ i < N, Runs ⟨i, N⟩ c x) →
        shownOf ms (s.own N work x) = (List.replicate N (expected .aggregated N c work x)).flatten := by
  refine ⟨_, C44_stage h hh hfix hdist hstore .aggregated, by rw [List.map_map]; exact List.map_id _, ?_⟩
  intro x ms hm hk hr
  obtain ⟨y, _, e⟩ := List.mem_map.mp hm
  cases e
  have hobj : ∀ i < N, s.obj i x = .coordinator x := fun i hi => Sharing.obj_coordinator.mpr ⟨hall i hi, hk⟩
  have hown : s.own N work x = expected .aggregated N c work x := by
    show (List.range N).flatMap _ = _
    unfold expected
    apply List.flatMap_congr
    intro i hi
    have hi := List.mem_range.mp hi
    rw [if_pos (hobj i hi), if_pos (hr i hi)]
    exact (List.map_id _).symm
  have hrec : ∀ i < N, s.recorded N work i x = expected .aggregated N c work x := by
    intro i hi
    unfold Sharing.recorded
    rw [hobj i hi]
    exact hown
  have hexp : expected .aggregated N c (s.recorded N work) x = (List.replicate N (expected .aggregated N c work x)).flatten := by
    conv => lhs; unfold expected
    rw [List.flatMap_congr (g := fun _ => expected .aggregated N c work x)]
    · have : ∀ (l : List Nat) (y : List (Metric V)), l.flatMap (fun _ => y) = (List.replicate l.length y).flatten := by
        intro l y
        induction l with
        | nil => rfl
        | cons a l ih => rw [List.flatMap_cons, ih, List.length_cons, List.replicate_succ, List.flatten_cons]
      rw [this, List.length_range]
    · intro i hi
      have hi := List.mem_range.mp hi
      rw [if_pos (hr i hi), hrec i hi]
      exact List.map_id _
  rw [hexp, hown]
  apply C44_displayed
  intro m hm
  refine ⟨m, ?_, rfl, rfl⟩
  rw [List.mem_flatten]
  cases N with
  | zero => unfold expected at hm; cases hm
  | succ n => exact ⟨_, by rw [List.replicate_succ]; exact List.mem_cons_self, hm⟩

/-! ### The theorems apply -/

/-- Every task of a stage can report. -/
theorem stage_reports {ph : Bool} {N : Nat} {c : Plan Row} {I : Info Row} (h : Legal ph N (strip c) I)
    (hh : c.kind.isHead = true → c.children.length = 1) {hd : Head Row} (hfix : hd.insert c = .ok c) (query num : Nat)
    (recorded : Nat → Path → List (Metric V)) :
    ∃ store : Store V, ∀ i < N, ∃ w r, hd.insert (share ⟨i, N⟩ c) = .ok w ∧ report w ⟨i, N⟩ (recorded i) = .ok r
      ∧ store ⟨query, num, i⟩ = some r := by
  have : ∀ i, ∃ o, i < N → ∃ w r, hd.insert (share ⟨i, N⟩ c) = .ok w ∧ report w ⟨i, N⟩ (recorded i) = .ok r ∧ o = some r := by
    intro i
    by_cases hi : i < N
    · obtain ⟨w, r, h1, h2⟩ := C44_tasks_can_report h hh hfix recorded hi
      exact ⟨some r, fun _ => ⟨w, r, h1, h2, rfl⟩⟩
    · exact ⟨none, fun h => absurd h hi⟩
  choose o ho using this
  exact ⟨fun k => o k.task, ho⟩

/-- A stage with an isolated union of three tasks, the second of them in the coordinator's process. Whatever its leaf
records is shown once, although both the task and the coordinator's copy of the leaf have it. -/
example (work : Nat → Path → List (Metric Nat)) (hwork : ∀ i < 3, ∀ x, ¬ Runs ⟨i, 3⟩ Tree.Rec.Demo.branches x → work i x = []) :
    ∃ store l, stageRewrite .perTask Encodable.encode 7 2 3 store Tree.Rec.Demo.branches = .ok l ∧ l.map (·.1) = nodes Tree.Rec.Demo.branches
      ∧ ∀ x ms, (x, ms) ∈ l → shownOf ms ((Sharing.mk (· == 1) (fun _ => true)).own 3 work x)
        = expected .perTask 3 Tree.Rec.Demo.branches work x := by
  have h : Legal false 3 (strip Tree.Rec.Demo.branches) _ := Tree.Rec.Demo.branches_legal
  obtain ⟨store, hstore⟩ := stage_reports h (by intro h; cases h) (hd := .none) rfl 7 2
    ((Sharing.mk (· == 1) (fun _ => true)).recorded 3 work)
  obtain ⟨l, h1⟩ := C44_in_process h (by intro h; cases h) (hd := .none) rfl (addr := Encodable.encode)
    (fun x y _ _ h => Encodable.encode_injective h) ⟨(· == 1), fun _ => true⟩ hwork
    (fun i _ j _ hi hj => by
      have hi := beq_iff_eq.mp hi
      have hj := beq_iff_eq.mp hj
      omega) hstore .perTask
  exact ⟨store, l, h1⟩

/-- Two tasks in the coordinator's process scan 3 and 4 rows: 14 rows are shown. -/
example : ∃ store l ms, stageRewrite .aggregated Encodable.encode 7 2 2 store (fresh (.distLeaf [[1, 2]] [[[1]], [[2]]]) []) = .ok l
    ∧ ([], ms) ∈ l
    ∧ ((shownOf ms ((Sharing.mk (fun _ => true) (fun _ => true)).own 2 (fun i _ => [⟨3 + i, some 0, []⟩]) [])).map (·.value)).sum = 14 := by
  have h : Legal false 2 (strip (fresh (.distLeaf [[1, 2]] [[[1]], [[2]]]) [])) ⟨1, none, false, .perm⟩ :=
    .distLeaf (by decide) rfl (by decide) (by decide) (by decide)
  obtain ⟨store, hstore⟩ := stage_reports h (by intro h; cases h) (hd := .none) rfl 7 2
    ((Sharing.mk (fun _ => true) (fun _ => true)).recorded 2 (fun i _ => [⟨3 + i, some 0, []⟩]))
  obtain ⟨l, h1, h2, h3⟩ := C44_in_process_false h (by intro h; cases h) (hd := .none) rfl (addr := Encodable.encode)
    (fun x y _ _ h => Encodable.encode_injective h) ⟨fun _ => true, fun _ => true⟩ (fun _ _ => rfl) hstore
  have hm : [] ∈ l.map (·.1) := by
    rw [h2]
    unfold fresh nodes
    exact List.mem_cons_self
  obtain ⟨⟨x, ms⟩, hl, e⟩ := List.mem_map.mp hm
  have e : x = [] := e
  subst e
  refine ⟨store, l, ms, h1, hl, ?_⟩
  rw [h3 _ ms hl rfl (fun _ _ => .root)]
  have : expected .aggregated 2 (fresh (.distLeaf [[1, 2]] [[[1]], [[2]]]) []) (fun i _ => [(⟨3 + i, some 0, []⟩ : Metric Nat)]) []
      = [⟨3, some 0, []⟩, ⟨4, some 0, []⟩] := by
    unfold expected
    simp [List.range_succ, Runs.root, shownFor]
  rw [this]
  rfl

end DD.Metrics
