/-
C38 and C39: work units reach exactly the partition they are meant for, in order, and each feed is
consumed at most once.
-/
import Mathlib.Data.List.Nodup
import Verif.Lemmas.WorkUnit

namespace DD.WU

open DD.Worker (upd upd_same upd_ne)

variable {U : Type}

/-- The coordinator→worker stream was lost before the worker had handled the end-of-feed message. -/
def CutShort (nodes : List (Node U)) (steps : List Step) : Prop :=
  ∃ pre post, steps = pre ++ .close :: post ∧ (run nodes pre).sendersAlive = true

theorem inv_run (nodes : List (Node U)) (steps : List Step) :
    ∃ cut, Inv nodes cut (run nodes steps) ∧ (cut = true → CutShort nodes steps) := by
  suffices H : ∀ (rest done : List Step) (cut : Bool), Inv nodes cut (run nodes done) →
      (cut = true → CutShort nodes done) →
      ∃ cut', Inv nodes cut' (run nodes (done ++ rest)) ∧ (cut' = true → CutShort nodes (done ++ rest)) by
    exact H steps [] false (inv_init nodes) (by simp)
  intro rest
  induction rest with
  | nil => intro done cut h hc; exact ⟨cut, by simpa using h, by simpa using hc⟩
  | cons st rest ih =>
    intro done cut h hc
    have hrun : run nodes (done ++ [st]) = step nodes (declaredBy nodes) (run nodes done) st := by
      simp [run]
    have h' := inv_step nodes h st
    rw [← hrun] at h'
    have := ih (done ++ [st]) _ h' ?_
    · simpa using this
    · intro hcut
      rw [Bool.or_eq_true] at hcut
      rcases hcut with q | q
      · obtain ⟨pre, post, q1, q2⟩ := hc q
        exact ⟨pre, post ++ [st], by simp [q1], q2⟩
      · cases st with
        | close => exact ⟨done, [], rfl, q⟩
        | _ => cases q

/-- No two feed nodes of a task's plan share an id. (Clones of a feed do; the model of `feedOf` is for feeds that do not.) -/
def DistinctIds (nodes : List (Node U)) : Prop := (nodes.map (·.id)).Nodup

theorem feedOf_node (nodes : List (Node U)) (hid : DistinctIds nodes) (n : Node U) (hn : n ∈ nodes)
    (p : Nat) (hp : p < n.partitions) :
    feedOf nodes (n.id, p) = n.feed (n.partitions * n.taskIndex + p) := by
  unfold feedOf
  cases hf : nodes.find? (fun m => m.id == n.id) with
  | none =>
    rw [List.find?_eq_none] at hf
    exact absurd (by simp) (hf n hn)
  | some m =>
    have hm := List.mem_of_find?_eq_some hf
    have he : m.id = n.id := by simpa using List.find?_some hf
    have := List.inj_on_of_nodup_map hid hm hn he
    subst this
    simp [Node.localFeed, hp]

theorem declared_node (nodes : List (Node U)) (n : Node U) (hn : n ∈ nodes)
    (p : Nat) (hp : p < n.partitions) : declaredBy nodes (n.id, p) = true := by
  simp only [declaredBy, List.any_eq_true, Bool.and_eq_true, beq_iff_eq, decide_eq_true_eq]
  exact ⟨n, hn, rfl, hp⟩

/-- **C38, order and destination.** Under every schedule, batching, loss of the connection and dropping
of receivers, what local partition `p` of a node has received is, in order, an initial part of what the
coordinator's feed produced for the global partition `partitions * task_index + p`; a receiver nobody
declared gets nothing. -/
theorem C38_units_in_order (nodes : List (Node U)) (hid : DistinctIds nodes) (steps : List Step) :
    (∀ n ∈ nodes, ∀ p < n.partitions,
      ((run nodes steps).got (n.id, p)).map Except.ok <+:
        n.feed (n.partitions * n.taskIndex + p)) ∧
    (∀ id p, (∀ n ∈ nodes, n.id = id → n.partitions ≤ p) → (run nodes steps).got (id, p) = []) := by
  obtain ⟨cut, inv, -⟩ := inv_run nodes steps
  refine ⟨?_, ?_⟩
  · intro n hn p hp
    have := inv.dropped (n.id, p) (declared_node nodes n hn p hp)
    rwa [feedOf_node nodes hid n hn p hp] at this
  · intro id p h
    refine (inv.undeclared (id, p) ?_).1
    rw [← Bool.not_eq_true]
    simp only [declaredBy, List.any_eq_true, Bool.and_eq_true, beq_iff_eq, decide_eq_true_eq]
    rintro ⟨n, hn, h1, h2⟩
    have := h n hn h1
    omega

/-- What a receiver that has seen the end of its feed has received, whether or not it still exists. -/
def EndComplete (nodes : List (Node U)) (cut : Bool) (s : State U) : Prop :=
  cut = false → s.phase = .finished → ∀ k, declaredBy nodes k = true → s.sawEnd k = true →
    (s.got k).map Except.ok = feedOf nodes k

theorem end_of_kept {nodes : List (Node U)} {cut : Bool} {s : State U} (h : Inv nodes cut s)
    (hcut : cut = false) (hfin : s.phase = .finished) {k : Key} (hk : declaredBy nodes k = true)
    (hd : s.rxDropped k = false) (he : s.sawEnd k = true) :
    (s.got k).map Except.ok = feedOf nodes k := by
  have h1 := h.finished hcut hfin k hk hd
  obtain ⟨h2, h3⟩ := h.ended k he
  rw [h3] at h1
  simpa [flight, h2] using h1

/-- A receiver that is gone receives nothing more, and sees no end; nothing can be behind it once it has
seen the end. -/
theorem dropped_step (nodes : List (Node U)) {cut : Bool} {s : State U} (h : Inv nodes cut s)
    (st : Step) (k : Key)
    (he : (step nodes (declaredBy nodes) s st).sawEnd k = true)
    (hd : (step nodes (declaredBy nodes) s st).rxDropped k = true) :
    s.sawEnd k = true ∧ (step nodes (declaredBy nodes) s st).got k = s.got k := by
  cases st with
  | recv j =>
    simp only [step] at he hd ⊢
    by_cases hg : (s.rxDropped j || !declaredBy nodes j) = true
    · rw [if_pos hg] at he ⊢; exact ⟨he, rfl⟩
    · rw [if_neg hg] at he hd ⊢
      cases hq : s.queue j with
      | cons u rest =>
        rw [hq] at he hd
        simp only at he hd ⊢
        by_cases hkj : k = j
        · subst hkj
          exact absurd (by rw [hd]; rfl) hg
        · exact ⟨he, upd_ne hkj ..⟩
      | nil =>
        rw [hq] at he hd
        simp only at he hd ⊢
        by_cases ha : s.sendersAlive = true
        · rw [if_pos ha] at he ⊢; exact ⟨he, rfl⟩
        · rw [if_neg ha] at he hd ⊢
          by_cases hkj : k = j
          · subst hkj
            exact absurd (by rw [hd]; rfl) hg
          · simp only [upd_ne hkj] at he
            exact ⟨he, rfl⟩
  | _ =>
    simp only [step] at he ⊢
    repeat' split at he
    all_goals first
      | exact ⟨he, rfl⟩
      | exact ⟨he, trivial⟩
      | (refine ⟨he, ?_⟩; repeat' split) <;> rfl

theorem finished_step (nodes : List (Node U)) (s : State U) (st : Step)
    (h : (step nodes (declaredBy nodes) s st).phase = .finished) :
    s.phase = .finished ∨ s.phase = .running := by
  cases hp : s.phase with
  | running => exact Or.inr rfl
  | finished => exact Or.inl rfl
  | failed =>
    cases st <;> simp only [step, hp] at h <;> (repeat' split at h) <;> simp_all

theorem endComplete_step (nodes : List (Node U)) {cut : Bool} {s : State U} (h : Inv nodes cut s)
    (he : EndComplete nodes cut s) (st : Step) :
    EndComplete nodes (cut || (match st with | .close => s.sendersAlive | _ => false))
      (step nodes (declaredBy nodes) s st) := by
  intro hcut hfin k hk hend
  have h' := inv_step nodes h st
  cases hd : (step nodes (declaredBy nodes) s st).rxDropped k with
  | false => exact end_of_kept h' hcut hfin hk hd hend
  | true =>
    obtain ⟨h1, h2⟩ := dropped_step nodes h st k hend hd
    have hc : cut = false := by
      cases cut with
      | false => rfl
      | true => simp at hcut
    rcases finished_step nodes s st hfin with hp | hp
    · rw [h2]; exact he hc hp k hk h1
    · have := (h.running hc hp).1
      rw [(h.ended k h1).1] at this
      cases this

theorem endComplete_run (nodes : List (Node U)) (steps : List Step) :
    ∃ cut, EndComplete nodes cut (run nodes steps) ∧ (cut = true → CutShort nodes steps) := by
  suffices H : ∀ (rest done : List Step) (cut : Bool), Inv nodes cut (run nodes done) →
      EndComplete nodes cut (run nodes done) → (cut = true → CutShort nodes done) →
      ∃ cut', EndComplete nodes cut' (run nodes (done ++ rest)) ∧
        (cut' = true → CutShort nodes (done ++ rest)) by
    exact H steps [] false (inv_init nodes) (by intro _ h; cases h) (by simp)
  intro rest
  induction rest with
  | nil => intro done cut _ h hc; exact ⟨cut, by simpa using h, by simpa using hc⟩
  | cons st rest ih =>
    intro done cut hi h hc
    have hrun : run nodes (done ++ [st]) = step nodes (declaredBy nodes) (run nodes done) st := by
      simp [run]
    have h' := endComplete_step nodes hi h st
    have hi' := inv_step nodes hi st
    rw [← hrun] at h' hi'
    have := ih (done ++ [st]) _ hi' h' ?_
    · simpa using this
    · intro hcut
      rw [Bool.or_eq_true] at hcut
      rcases hcut with q | q
      · obtain ⟨pre, post, q1, q2⟩ := hc q
        exact ⟨pre, post ++ [st], by simp [q1], q2⟩
      · cases st with
        | close => exact ⟨done, [], rfl, q⟩
        | _ => cases q

/-- **C38, completeness (partial).** If the coordinator's sending task drained its feeds and the stream
was not lost before the end-of-feed message was handled, a receiver that observes the end of its feed
has received every unit of it.
Missing for the full claim: the receiver cannot tell this end from the one it sees after a feed error
or a lost stream (`C38_feed_error_looks_complete`, `C38_lost_stream_looks_complete`). -/
theorem C38_end_of_feed_is_complete_partial (nodes : List (Node U)) (hid : DistinctIds nodes)
    (steps : List Step) (hfin : (run nodes steps).phase = .finished) (hcut : ¬ CutShort nodes steps)
    (n : Node U) (hn : n ∈ nodes) (p : Nat) (hp : p < n.partitions)
    (hend : (run nodes steps).sawEnd (n.id, p) = true) :
    ((run nodes steps).got (n.id, p)).map Except.ok = n.feed (n.partitions * n.taskIndex + p) := by
  obtain ⟨cut, inv, hc⟩ := endComplete_run nodes steps
  have hcf : cut = false := by
    cases cut with
    | false => rfl
    | true => exact absurd (hc rfl) hcut
  rw [inv hcf hfin (n.id, p) (declared_node nodes n hn p hp) hend, feedOf_node nodes hid n hn p hp]

/-- **C38, the receiver ends.** No receiver observes the end of its feed before the sending task has
stopped, unless the stream was lost. -/
theorem C38_no_early_end (nodes : List (Node U)) (steps : List Step)
    (hcut : ¬ CutShort nodes steps) (k : Key) (hend : (run nodes steps).sawEnd k = true) :
    (run nodes steps).phase ≠ .running := by
  obtain ⟨cut, inv, hc⟩ := inv_run nodes steps
  have hcf : cut = false := by
    cases cut with
    | false => rfl
    | true => exact absurd (hc rfl) hcut
  intro hr
  have h1 := (inv.running hcf hr).1
  rw [(inv.ended k hend).1] at h1
  cases h1

/-- **C38, every global partition is served exactly once.** Over the `T` tasks of a stage whose node has
`P` partitions, global partition `g < T * P` is streamed to local partition `g % P` of task `g / P` and
to no other partition of any task. -/
theorem C38_each_global_partition_once (P T g : Nat) (hP : 0 < P) (hg : g < P * T) :
    (g / P < T ∧ g % P < P ∧ P * (g / P) + g % P = g) ∧
    ∀ i p, i < T → p < P → P * i + p = g → i = g / P ∧ p = g % P := by
  refine ⟨⟨Nat.div_lt_of_lt_mul hg, Nat.mod_lt _ hP, Nat.div_add_mod g P⟩, ?_⟩
  intro i p _ hp h
  subst h
  refine ⟨?_, ?_⟩
  · rw [Nat.mul_add_div hP, Nat.div_eq_of_lt hp]; rfl
  · rw [Nat.mul_add_mod, Nat.mod_eq_of_lt hp]

/-- One feed node of two partitions on task 1, so it streams global partitions 2 and 3. -/
def exNode : Node Nat where
  id := 5
  partitions := 2
  taskIndex := 1
  feed := fun g => [.ok (10 * g), .ok (10 * g + 1)]

/-- Non-vacuity: an interleaved run in which both receivers see everything and the end. -/
example : let s := run [exNode] (
    [.pull 5 1, .pull 5 0, .flush 5, .deliver, .recv (5, 0), .pull 5 1, .pull 5 0, .flush 5, .finish,
     .deliver, .deliver, .recv (5, 0), .recv (5, 0), .recv (5, 1), .recv (5, 1), .recv (5, 1)])
    s.got (5, 0) = [20, 21] ∧ s.got (5, 1) = [30, 31] ∧ s.phase = .finished ∧
    s.sawEnd (5, 0) = true ∧ s.sawEnd (5, 1) = true := by
  decide

example : DistinctIds [exNode, { exNode with id := 6 }] := by simp [DistinctIds, exNode]

/-- A feed whose second item is an error. -/
def exBadNode : Node Nat where
  id := 5
  partitions := 1
  taskIndex := 0
  feed := fun _ => [.ok 1, .error (.user 9), .ok 2]

/-- **Finding.** When a feed fails on the coordinator, the worker's leaf sees a clean end of feed with
units missing: even the unit produced *before* the error is lost when both fall into one chunk. (The
error itself surfaces only later, through the coordinator's pending tasks.) -/
theorem C38_feed_error_looks_complete : ∃ steps : List Step,
    let s := run [exBadNode] steps
    ¬ CutShort [exBadNode] steps ∧ s.sawEnd (5, 0) = true ∧ s.got (5, 0) = [] := by
  refine ⟨[.pull 5 0, .pull 5 0, .flush 5, .deliver, .recv (5, 0)], ?_, by decide, by decide⟩
  rintro ⟨pre, post, h, -⟩
  have : Step.close ∈ [Step.pull 5 0, .pull 5 0, .flush 5, .deliver, .recv (5, 0)] := by
    rw [h]; simp
  simp at this

/-- **Finding.** When the coordinator→worker stream is lost before the end-of-feed message, the leaf
also sees a clean end of feed. -/
theorem C38_lost_stream_looks_complete : ∃ steps : List Step,
    let s := run [exNode] steps
    s.sawEnd (5, 0) = true ∧ s.got (5, 0) = [20] ∧ s.phase = .running :=
  ⟨[.pull 5 0, .flush 5, .deliver, .close, .recv (5, 0), .recv (5, 0)], by decide⟩

/-- **C38, what a worker does with any message.** Whatever units a message carries, every receiver gets the units of its own
feed and partition, in their order, and nothing else happens. **Finding**: units of feeds the task never declared are neither
delivered nor answered with an error, and the feed ends as if they had never been. -/
theorem C38_unknown_units_are_skipped (nodes : List (Node U)) (declared : Key → Bool) (s : State U) (us : List (Key × U))
    (rest : List (Msg U)) (hw : s.wire = .batch us :: rest) (ha : s.sendersAlive = true) :
    (∀ k, (step nodes declared s .deliver).queue k = s.queue k
      ++ if declared k = true ∧ s.rxDropped k = false then us.filterMap (fun u => if u.1 = k then some u.2 else none) else [])
    ∧ { step nodes declared s .deliver with queue := s.queue } = { s with wire := rest } := by
  have e : step nodes declared s .deliver
      = { s with wire := rest, queue := us.foldl (deliverUnit declared s.rxDropped) s.queue } := by
    simp only [step, hw, ha, if_true]
  rw [e]
  refine ⟨fun k => ?_, rfl⟩
  show us.foldl (deliverUnit declared s.rxDropped) s.queue k = _
  rw [foldl_deliver]
  cases hd : declared k <;> cases hr : s.rxDropped k <;> simp [unitsFor]

example : let s := { run [exNode] [.pull 5 0] with wire := [.batch [((5, 0), 1), ((7, 0), 2), ((5, 2), 3), ((5, 0), 4)]] }
    let t := step [exNode] (declaredBy [exNode]) s .deliver
    t.queue (5, 0) = [1, 4] ∧ t.queue (7, 0) = [] ∧ t.queue (5, 2) = [] ∧ t.phase = .running := by
  decide

/-! ### C39 -/

/-- A partition is declared if some declaration of its id covers it. -/
def Declared (decls : List (Nat × Nat)) (k : Key) : Prop :=
  ∃ d ∈ decls, d.1 = k.1 ∧ k.2 < d.2

theorem ofDecls_spec (decls : List (Nat × Nat)) (k : Key) :
    (Declared decls k → Registry.ofDecls decls k = some true) ∧
    (¬ Declared decls k → Registry.ofDecls decls k = none) := by
  suffices H : ∀ (decls : List (Nat × Nat)) (r : Key → Option Bool), (r k = none ∨ r k = some true) →
      ((Declared decls k ∨ r k = some true) →
        decls.foldl (fun r d => Registry.add r d.1 d.2) r k = some true) ∧
      ((¬ Declared decls k ∧ r k = none) →
        decls.foldl (fun r d => Registry.add r d.1 d.2) r k = none) by
    have := H decls (fun _ => none) (Or.inl rfl)
    exact ⟨fun h => this.1 (Or.inl h), fun h => this.2 ⟨h, rfl⟩⟩
  intro decls
  induction decls with
  | nil =>
    intro r hr
    refine ⟨?_, fun h => h.2⟩
    rintro (⟨d, hd, -⟩ | h)
    · cases hd
    · exact h
  | cons d rest ih =>
    intro r hr
    rw [List.foldl_cons]
    by_cases hc : k.1 = d.1 ∧ k.2 < d.2
    · have hadd : Registry.add r d.1 d.2 k = some true := by
        unfold Registry.add
        rw [if_pos hc]
        rcases hr with h | h <;> rw [h]
      have := ih (Registry.add r d.1 d.2) (Or.inr hadd)
      refine ⟨fun _ => this.1 (Or.inr hadd), ?_⟩
      rintro ⟨h, -⟩
      exact absurd ⟨d, by simp, hc.1.symm, hc.2⟩ h
    · have hadd : Registry.add r d.1 d.2 k = r k := by
        unfold Registry.add
        rw [if_neg hc]
      have := ih (Registry.add r d.1 d.2) (by rw [hadd]; exact hr)
      rw [hadd] at this
      refine ⟨?_, ?_⟩
      · rintro (⟨d', hd', h1, h2⟩ | h)
        · rcases List.mem_cons.mp hd' with rfl | hd'
          · exact absurd ⟨h1.symm, h2⟩ hc
          · exact this.1 (Or.inl ⟨d', hd', h1, h2⟩)
        · exact this.1 (Or.inr h)
      · rintro ⟨h, hn⟩
        refine this.2 ⟨?_, hn⟩
        rintro ⟨d', hd', h1, h2⟩
        exact h ⟨d', List.mem_cons_of_mem _ hd', h1, h2⟩

theorem after_spec (r : Key → Option Bool) (reqs : List Key) (k : Key) :
    Registry.after r reqs k = match r k with
      | none => none
      | some b => some (b && !decide (k ∈ reqs)) := by
  induction reqs generalizing r with
  | nil => cases h : r k <;> simp [Registry.after, h]
  | cons q rest ih =>
    show Registry.after (Registry.feed r q).1 rest k = _
    rw [ih]
    unfold Registry.feed
    by_cases hq : k = q
    · subst hq
      cases h : r k with
      | none => simp [h]
      | some b => cases b <;> simp [h, upd_same]
    · cases h : r q with
      | none => simp [hq]
      | some b => cases b <;> simp [upd_ne hq, hq]

/-- **C39.** For any declarations and any sequence of earlier requests: a request for a feed partition
succeeds exactly if it is declared and was not requested before; requesting it again, or requesting an
undeclared one, is an error. In particular each declared partition is handed out at most once. -/
theorem C39_take_once (decls : List (Nat × Nat)) (before : List Key) (k : Key) :
    (Declared decls k → k ∉ before →
      (Registry.feed (Registry.after (Registry.ofDecls decls) before) k).2 = .ok ()) ∧
    (Declared decls k → k ∈ before →
      (Registry.feed (Registry.after (Registry.ofDecls decls) before) k).2
        = .error (.exec "already consumed")) ∧
    (¬ Declared decls k →
      (Registry.feed (Registry.after (Registry.ofDecls decls) before) k).2
        = .error (.exec "missing feed")) := by
  have h := after_spec (Registry.ofDecls decls) before k
  obtain ⟨h1, h2⟩ := ofDecls_spec decls k
  refine ⟨?_, ?_, ?_⟩
  · intro hd hb
    rw [h1 hd] at h
    simp only [hb, decide_false, Bool.not_false, Bool.and_self] at h
    simp [Registry.feed, h]
  · intro hd hb
    rw [h1 hd] at h
    simp only [hb, decide_true, Bool.not_true, Bool.and_false] at h
    simp [Registry.feed, h]
  · intro hd
    rw [h2 hd] at h
    simp [Registry.feed, h]

/-- Non-vacuity: two declarations with the same id do not make a partition available twice. -/
example : Declared [(5, 2), (5, 1)] (5, 0) ∧
    (Registry.feed (Registry.after (Registry.ofDecls [(5, 2), (5, 1)]) [(5, 0)]) (5, 0)).2
      = .error (.exec "already consumed") := ⟨⟨(5, 2), by simp, rfl, by decide⟩, rfl⟩

end DD.WU
