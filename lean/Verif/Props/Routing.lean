import Verif.Model.Boundary
import Verif.Lemmas.Boundary
/-
C01–C04: which consumer task and partition reads which producer task and partition.
-/
namespace DD

/-! ## Specification -/

/-- Every (producer task, producer partition) pair of a stage with `tasks` tasks of `parts` partitions, in order. -/
def allPairs (tasks parts : Nat) : List (Nat × Nat) :=
  (List.range tasks).flatMap fun j => (List.range parts).map fun p => (j, p)

/-- What an `execute` call reads; a failed call reads nothing. -/
def readsOf : Except Err (List Pull) → List (Nat × Nat)
  | .ok pulls => pulls.map fun r => (r.task, r.partition)
  | .error _ => []

/-- Everything read when every output partition of every consumer task is executed once. -/
def allReads (consumerTasks outPartitions : Nat) (exec : TaskCtx → Nat → Except Err (List Pull)) : List (Nat × Nat) :=
  (List.range consumerTasks).flatMap fun i => (List.range outPartitions).flatMap fun q => readsOf (exec ⟨i, consumerTasks⟩ q)

theorem allPairs_nodup (n p : Nat) : (allPairs n p).Nodup := by
  unfold allPairs
  rw [List.nodup_flatMap]
  refine ⟨fun j _ => ?_, ?_⟩
  · exact List.Nodup.map (fun a b h => by simpa using h) List.nodup_range
  · refine List.Pairwise.imp_of_mem ?_ (List.nodup_range (n := n))
    intro a b _ _ hab
    simp only [Function.onFun, List.disjoint_left, List.mem_map]
    rintro x ⟨p, _, rfl⟩ ⟨q, _, h⟩
    simp at h; exact hab h.1.symm

/-! ## C01 -/

/-- **C01** For `N` producer tasks of `P` partitions and `T ≥ 1` consumer tasks: construction succeeds, no call within
the advertised partitions fails, every call reads at most one remote partition, which exists and lies in the requested
range, which itself is within the producer's partitions, and all reads together, in order of consumer task and
partition, are exactly all producer pairs in order: each exactly once. -/
theorem C01_coalesce_exactly_once (P N T : Nat) (hT : 0 < T) :
    ∃ e, CoalesceExec.tryNew P N T = .ok e ∧
      (∀ i < T, ∀ q < e.outPartitions, ∃ pulls, e.execute ⟨i, T⟩ q = .ok pulls ∧ pulls.length ≤ 1 ∧
        ∀ r ∈ pulls, r.task < N ∧ r.partition < P ∧ r.lo ≤ r.partition ∧ r.partition < r.hi ∧ r.hi ≤ P) ∧
      allReads T e.outPartitions e.execute = allPairs N P := by
  refine ⟨⟨P * max (divCeil N T) 1, N⟩, by simp [CoalesceExec.tryNew, Nat.ne_of_gt hT], ?_, ?_⟩
  · intro i hi q hq
    have hP : 0 < P := by
      rcases Nat.eq_zero_or_pos P with h | h
      · subst h; simp at hq
      · exact h
    have hq' := Nat.div_add_mod q P
    have hm := Nat.mod_lt q hP
    have := coalesce_execute_eq P N T i (q / P) (q % P) hi hm
    rw [hq'] at this
    refine ⟨_, this, by split <;> simp, ?_⟩
    intro r hr
    split at hr
    · rename_i hlt
      simp only [List.mem_singleton] at hr
      subst hr
      simp only
      have hmono : ∀ k, i + 1 + k ≤ T → (taskGroup N (i+1) T).start ≤ (taskGroup N (i+1+k) T).start := by
        intro k
        induction k with
        | zero => intro _; exact Nat.le_refl _
        | succ k ih =>
          intro hk
          have := taskGroup_start_succ N T (i+1+k) hT
          rw [← Nat.add_assoc, this]
          exact Nat.le_trans (ih (by omega)) (Nat.le_add_right _ _)
      have h1 := hmono (T - (i+1)) (by omega)
      rw [show i + 1 + (T - (i+1)) = T by omega, taskGroup_start_last N T hT, taskGroup_start_succ N T i hT] at h1
      omega
    · simp at hr
  · simp only [allReads, allPairs]
    have key : ∀ i ∈ List.range T,
        (List.range (P * max (divCeil N T) 1)).flatMap
            (fun q => readsOf ((CoalesceExec.mk (P * max (divCeil N T) 1) N).execute ⟨i, T⟩ q))
          = ((List.range (taskGroup N i T).len).map ((taskGroup N i T).start + ·)).flatMap
              (fun j => (List.range P).map fun p => (j, p)) := by
      intro i hi
      rw [coalesce_task_reads P N T i (List.mem_range.mp hi) readsOf rfl, List.flatMap_map]
      apply flatMap_congr'
      intro o _
      simp only [readsOf, List.map_cons, List.map_nil]
      rw [List.map_eq_flatMap]
    rw [flatMap_congr' key]
    have := congrArg (List.flatMap (fun j => (List.range P).map fun p => (j, p))) (taskGroup_flatten N T T hT)
    rw [taskGroup_start_last N T hT, List.flatMap_assoc] at this
    exact this

/-- **C01**, pointwise: every producer pair is read by exactly one (consumer task, output partition). -/
theorem C01_coalesce_unique_reader (P N T : Nat) (hT : 0 < T) (e : CoalesceExec)
    (he : CoalesceExec.tryNew P N T = .ok e) (j p : Nat) (hj : j < N) (hp : p < P) :
    ∃ i q, (i < T ∧ q < e.outPartitions ∧ (j, p) ∈ readsOf (e.execute ⟨i, T⟩ q)) ∧
      ∀ i' q', i' < T → q' < e.outPartitions → (j, p) ∈ readsOf (e.execute ⟨i', T⟩ q') → i' = i ∧ q' = q := by
  obtain ⟨e', he', _, hall⟩ := C01_coalesce_exactly_once P N T hT
  obtain rfl : e' = e := by rw [he] at he'; exact (Except.ok.inj he').symm
  have hmem : (j, p) ∈ allReads T e'.outPartitions e'.execute := by
    rw [hall]; simp [allPairs]; omega
  have hnd : (allReads T e'.outPartitions e'.execute).Nodup := by rw [hall]; exact allPairs_nodup _ _
  have hmem0 := hmem
  simp only [allReads, List.mem_flatMap, List.mem_range] at hmem
  obtain ⟨i, hi, q, hq, hr⟩ := hmem
  refine ⟨i, q, ⟨hi, hq, hr⟩, ?_⟩
  intro i' q' hi' hq' hr'
  have hii : i' = i :=
    eq_of_mem_flatMap_nodup hnd (List.mem_range.mpr hi') (List.mem_range.mpr hi)
      (List.mem_flatMap.mpr ⟨q', List.mem_range.mpr hq', hr'⟩) (List.mem_flatMap.mpr ⟨q, List.mem_range.mpr hq, hr⟩)
  refine ⟨hii, ?_⟩
  subst hii
  unfold allReads at hnd
  have hnd2 := (List.nodup_flatMap.mp hnd).1 i' (List.mem_range.mpr hi)
  exact eq_of_mem_flatMap_nodup hnd2 (List.mem_range.mpr hq') (List.mem_range.mpr hq) hr' hr

/-- Construction with zero consumer tasks is refused. -/
theorem C01_zero_consumers_rejected (P N : Nat) : ∃ s, CoalesceExec.tryNew P N 0 = .error (.plan s) :=
  ⟨_, rfl⟩

/-- Non-vacuity: 5 producer tasks of 2 partitions, 3 consumer tasks. -/
example : ∃ e, CoalesceExec.tryNew 2 5 3 = .ok e ∧ e.outPartitions = 4 ∧
    allReads 3 e.outPartitions e.execute
      = [(0,0),(0,1),(1,0),(1,1),(2,0),(2,1),(3,0),(3,1),(4,0),(4,1)] := ⟨_, rfl, rfl, by decide⟩

/-! ## C02 -/

/-- **C02** There are cut points `0 = s 0 ≤ s 1 ≤ … ≤ s T = N` such that consumer task `i` reads, in order, exactly the
partitions of producer tasks `s i, …, s (i+1) - 1`; run lengths differ by at most one and every run fits in the
advertised partition count. -/
theorem C02_coalesce_groups (P N T : Nat) (hT : 0 < T) (e : CoalesceExec) (he : CoalesceExec.tryNew P N T = .ok e) :
    ∃ s : Nat → Nat, s 0 = 0 ∧ s T = N ∧ (∀ i < T, s i ≤ s (i + 1)) ∧
      (∀ i < T, (List.range e.outPartitions).flatMap (fun q => readsOf (e.execute ⟨i, T⟩ q))
        = (List.range (s (i + 1) - s i)).flatMap fun o => (List.range P).map fun p => (s i + o, p)) ∧
      (∀ i < T, ∀ i' < T, s (i + 1) - s i ≤ (s (i' + 1) - s i') + 1) ∧
      (∀ i < T, P * (s (i + 1) - s i) ≤ e.outPartitions) := by
  obtain rfl : ⟨P * max (divCeil N T) 1, N⟩ = e := by
    simp [CoalesceExec.tryNew, Nat.ne_of_gt hT] at he; exact he
  have hsub : ∀ i, (taskGroup N (i+1) T).start - (taskGroup N i T).start = (taskGroup N i T).len := by
    intro i; rw [taskGroup_start_succ N T i hT]; omega
  refine ⟨fun i => (taskGroup N i T).start, taskGroup_start_zero N T, taskGroup_start_last N T hT, ?_, ?_, ?_, ?_⟩
  · intro i _; simp only; rw [taskGroup_start_succ N T i hT]; omega
  · intro i hi
    simp only [hsub]
    rw [coalesce_task_reads P N T i hi readsOf rfl]
    apply flatMap_congr'
    intro o _
    rw [List.map_eq_flatMap]; rfl
  · intro i _ i' _
    simp only [hsub]
    simp only [taskGroup, Nat.ne_of_gt hT, if_false]
    split <;> split <;> omega
  · intro i _
    simp only [hsub]
    apply Nat.mul_le_mul_left
    have := taskGroup_len_le N T i
    rw [taskGroup_maxLen N T i hT] at this
    omega

example : ∃ e, CoalesceExec.tryNew 2 5 3 = .ok e ∧
    (List.range e.outPartitions).flatMap (fun q => readsOf (e.execute ⟨2, 3⟩ q)) = [(4,0),(4,1)] := ⟨_, rfl, by decide⟩

/-! ## C03 -/

/-- DataFusion's `RepartitionExec` with `Partitioning::Hash(key, n)` (external contract): partition `b` holds, in
order, the input rows whose key hash is `b` modulo `n`. -/
def hashBucket {Row Key} (key : Row → Key) (hash : Key → Nat) (n : Nat) (rows : List Row) (b : Nat) : List Row :=
  rows.filter fun r => hash (key r) % n = b

/-- The rows a consumer (task `i` of `T`, output partition `q`) of a shuffle pulls from the producer tasks, whose heads
repartition `rows j` into the number of partitions the boundary asks for. -/
def shuffleDelivered {Row Key} (e : FanExec) (T : Nat) (key : Row → Key) (hash : Key → Nat)
    (rows : Nat → List Row) (i q : Nat) : List Row :=
  (e.execute ⟨i, T⟩ q).flatMap fun r => hashBucket key hash (e.headPartitions T) (rows r.task) r.partition

/-- The requests of a shuffle or broadcast boundary: consumer task `i` asks each producer task for one range of
partitions, the ranges of different consumers do not overlap and cover `0 .. P*T`. -/
theorem fan_pulls (e : FanExec) (T i q : Nat) (hi : i < T) (hq : q < e.outPartitions) :
    (e.execute ⟨i, T⟩ q).map (·.task) = List.range e.inputTasks ∧
    ∀ r ∈ e.execute ⟨i, T⟩ q, r.task < e.inputTasks ∧ r.lo ≤ r.partition ∧ r.partition < r.hi ∧
      r.hi ≤ e.headPartitions T ∧ r.lo = e.outPartitions * i ∧ r.hi = r.lo + e.outPartitions ∧ r.partition = r.lo + q := by
  refine ⟨by simp [FanExec.execute, List.map_map, Function.comp_def], ?_⟩
  intro r hr
  simp only [FanExec.execute, List.mem_map, List.mem_range] at hr
  obtain ⟨j, hj, rfl⟩ := hr
  have : e.outPartitions * i + e.outPartitions ≤ e.headPartitions T := by
    rw [← Nat.mul_succ]; exact Nat.mul_le_mul_left _ hi
  refine ⟨hj, ?_, ?_, ?_, rfl, rfl, rfl⟩
  · show e.outPartitions * i ≤ e.outPartitions * i + q; omega
  · show e.outPartitions * i + q < e.outPartitions * i + e.outPartitions; omega
  · exact this

/-- **C03** `M` producer tasks with arbitrary rows, `T` consumer tasks, `P ≥ 1` output partitions per consumer task.
`streams i q` is what consumer task `i` sees on partition `q`: the pulled rows in any order (the streams are
interleaved). Then every pull names an existing producer task and partition; all streams together hold exactly the
producers' rows; a row is only in the stream its key is routed to, so rows with equal keys meet in one stream. -/
theorem C03_shuffle_exactly_once_colocated {Row Key} (P M T : Nat) (hP : 0 < P) (hT : 0 < T)
    (key : Row → Key) (hash : Key → Nat) (rows : Nat → List Row) (streams : Nat → Nat → List Row)
    (hs : ∀ i < T, ∀ q < P, (streams i q).Perm (shuffleDelivered ⟨P, M⟩ T key hash rows i q)) :
    (∀ i < T, ∀ q < P, ∀ r ∈ (FanExec.mk P M).execute ⟨i, T⟩ q, r.task < M ∧ r.partition < P * T) ∧
    ((List.range T).flatMap fun i => (List.range P).flatMap fun q => streams i q).Perm ((List.range M).flatMap rows) ∧
    (∀ i < T, ∀ q < P, ∀ i' < T, ∀ q' < P, ∀ r ∈ streams i q, ∀ r' ∈ streams i' q',
      key r = key r' → i = i' ∧ q = q') := by
  have hPT : 0 < P * T := Nat.mul_pos hP hT
  have hdel : ∀ i q, shuffleDelivered ⟨P, M⟩ T key hash rows i q
      = (List.range M).flatMap fun j => (rows j).filter fun r => hash (key r) % (P * T) = P * i + q := by
    intro i q
    unfold shuffleDelivered FanExec.execute
    rw [List.flatMap_map]
    rfl
  refine ⟨?_, ?_, ?_⟩
  · intro i hi q hq r hr
    obtain ⟨h1, h2, h3, h4, _⟩ := (fan_pulls ⟨P, M⟩ T i q hi hq).2 r hr
    exact ⟨h1, Nat.lt_of_lt_of_le h3 h4⟩
  · have h1 : ((List.range T).flatMap fun i => (List.range P).flatMap fun q => streams i q).Perm
        ((List.range T).flatMap fun i => (List.range P).flatMap fun q =>
          (List.range M).flatMap fun j => (rows j).filter fun r => hash (key r) % (P * T) = P * i + q) := by
      apply flatMap_perm_congr
      intro i hi
      apply flatMap_perm_congr
      intro q hq
      rw [← hdel]
      exact hs i (List.mem_range.mp hi) q (List.mem_range.mp hq)
    refine h1.trans ?_
    rw [← range_mul_flatMap T P (fun b => (List.range M).flatMap fun j =>
      (rows j).filter fun r => hash (key r) % (P * T) = b)]
    refine (flatMap_swap_perm _ _ _).trans ?_
    apply flatMap_perm_congr
    intro j _
    exact buckets_perm (fun r => hash (key r) % (P * T)) (P * T) (rows j) (fun r _ => Nat.mod_lt _ hPT)
  · intro i hi q hq i' hi' q' hq' r hr r' hr' hk
    have e1 := (hs i hi q hq).mem_iff.mp hr
    have e2 := (hs i' hi' q' hq').mem_iff.mp hr'
    rw [hdel] at e1 e2
    simp only [List.mem_flatMap, List.mem_filter, decide_eq_true_eq] at e1 e2
    obtain ⟨_, _, _, e1⟩ := e1
    obtain ⟨_, _, _, e2⟩ := e2
    rw [hk, e2] at e1
    have d1 : (P * i' + q') / P = (P * i + q) / P := by rw [e1]
    have d2 : (P * i' + q') % P = (P * i + q) % P := by rw [e1]
    rw [Nat.mul_add_div hP, Nat.mul_add_div hP, Nat.div_eq_of_lt hq, Nat.div_eq_of_lt hq'] at d1
    rw [Nat.mul_add_mod, Nat.mul_add_mod, Nat.mod_eq_of_lt hq, Nat.mod_eq_of_lt hq'] at d2
    omega

/-- Non-vacuity: two producers, two consumers with two partitions each; delivery as computed. -/
example : (List.range 2).flatMap (fun i => (List.range 2).map fun q =>
    shuffleDelivered ⟨2, 2⟩ 2 (fun r : Nat => r) (fun k => k) (fun j => if j = 0 then [1, 2, 3, 7] else [4, 5, 3]) i q)
    = [[4], [1, 5], [2], [3, 7, 3]] := by decide

/-! ## C04 -/

/-- The partitions of one broadcast producer task asked for by all consumer tasks: consumer `i` requests the range the
boundary computes, and the worker executes every partition of that range
(`/repo/src/worker/impl_execute_task.rs:44-55`). -/
def broadcastRequests (e : FanExec) (T j : Nat) : List Nat :=
  (List.range T).flatMap fun i => ((e.execute ⟨i, T⟩ 0).filter (fun r => r.task = j)).flatMap fun r =>
    (List.range (r.hi - r.lo)).map (r.lo + ·)

/-- **C04** A broadcast boundary over `M` producer tasks whose plans have `P ≥ 1` partitions, consumed by `T` tasks.
(1) The head it asks for builds, on every producer, a `BroadcastExec` with exactly `T` consumers per real partition.
(2) Whatever order (and whatever subset) of the consumers' partition requests arrives at producer task `j`, every
request succeeds and replays real partition `p % P`: nobody is turned away.
(3) The streams consumer task `i` reads replay every (producer task, real partition) exactly once. -/
theorem C04_broadcast_full_copy (P M T : Nat) (hP : 0 < P) :
    (∃ b, BroadcastExec.ofHead P ((FanExec.mk P M).headPartitions T) = .ok b ∧ b.inputPartitions = P ∧
      b.consumerTasks = T ∧ b.outPartitions = P * T ∧
      ∀ j < M, ∀ calls : List Nat, calls.Subperm (broadcastRequests ⟨P, M⟩ T j) →
        (b.run BroadcastSt.init calls).2 = calls.map fun p => .ok (p % P)) ∧
    ∀ i < T, ((List.range P).flatMap fun q => ((FanExec.mk P M).execute ⟨i, T⟩ q).map fun r =>
      (r.task, r.partition % P)).Perm (allPairs M P) := by
  constructor
  · refine ⟨⟨P, T⟩, ?_, rfl, rfl, rfl, ?_⟩
    · simp [BroadcastExec.ofHead, Nat.ne_of_gt hP, FanExec.headPartitions, Nat.mul_div_cancel_left T hP]
    · intro j hj calls hc
      apply broadcast_run_ok ⟨P, T⟩ hP
      intro r
      have h1 : broadcastRequests ⟨P, M⟩ T j = (List.range T).flatMap fun i => (List.range P).map (P * i + ·) := by
        unfold broadcastRequests
        apply flatMap_congr'
        intro i _
        have : ((FanExec.mk P M).execute ⟨i, T⟩ 0).filter (fun r => r.task = j)
            = [⟨j, P * i + 0, P * i, P * i + P⟩] := by
          simp only [FanExec.execute, List.filter_map, Function.comp_def]
          have : (List.range M).filter (fun x => decide (x = j)) = [j] := by
            clear hc r
            induction M with
            | zero => omega
            | succ M ih =>
              rw [List.range_succ, List.filter_append]
              by_cases h : j = M
              · subst h
                have : (List.range j).filter (fun x => decide (x = j)) = [] := by
                  simp only [List.filter_eq_nil_iff, List.mem_range, decide_eq_true_eq]; omega
                simp [this]
              · rw [ih (by omega)]; simp; omega
          rw [this]; rfl
        rw [this]
        simp
      have h2 : (calls.filter (fun p => p % P = r)).length
          ≤ ((broadcastRequests ⟨P, M⟩ T j).filter (fun p => p % P = r)).length := (hc.filter _).length_le
      refine Nat.le_trans h2 ?_
      rw [h1]
      clear hc h1 h2
      show _ ≤ T
      have h3 : ∀ n, (((List.range n).flatMap fun i => (List.range P).map (P * i + ·)).filter (fun p => p % P = r)).length
          ≤ n := by
        intro n
        induction n with
        | zero => simp
        | succ n ih =>
          rw [List.range_succ, List.flatMap_append, List.filter_append, List.length_append]
          have h4 : ((([n] : List Nat).flatMap fun i => (List.range P).map (P * i + ·)).filter (fun p => p % P = r)).length ≤ 1 := by
            simp only [List.flatMap_cons, List.flatMap_nil, List.append_nil, List.filter_map, Function.comp_def, List.length_map]
            have h5 : (List.range P).filter (fun x => decide ((P * n + x) % P = r))
                = (List.range P).filter (fun x => decide (x = r)) := by
              apply List.filter_congr
              intro x hx
              rw [Nat.mul_add_mod, Nat.mod_eq_of_lt (List.mem_range.mp hx)]
            rw [h5, ← List.countP_eq_length_filter]
            have := List.nodup_iff_count_le_one.mp (List.nodup_range (n := P)) r
            simpa [List.count, BEq.beq] using this
          omega
      exact h3 T
  · intro i hi
    have h1 : ((List.range P).flatMap fun q => ((FanExec.mk P M).execute ⟨i, T⟩ q).map fun r =>
        (r.task, r.partition % P)) = (List.range P).flatMap fun q => (List.range M).flatMap fun j => [(j, q)] := by
      apply flatMap_congr'
      intro q hq
      simp only [FanExec.execute, List.map_map, Function.comp_def]
      rw [List.map_eq_flatMap]
      apply flatMap_congr'
      intro j _
      rw [Nat.mul_add_mod, Nat.mod_eq_of_lt (List.mem_range.mp hq)]
    rw [h1]
    refine (flatMap_swap_perm _ _ _).trans ?_
    unfold allPairs
    apply flatMap_perm_congr
    intro j _
    rw [List.map_eq_flatMap]

example : broadcastRequests ⟨2, 2⟩ 3 1 = [0, 1, 2, 3, 4, 5] ∧
    ((BroadcastExec.mk 2 3).run BroadcastSt.init [5, 0, 1, 4, 3, 2]).2
      = [.ok 1, .ok 0, .ok 1, .ok 0, .ok 1, .ok 0] := by decide

/-- **C04** Whatever requests reach a broadcasting task, in whatever order: request `k`, for partition `p`, is served with the data of the
input partition it stands for if fewer than `consumerTasks` earlier requests were for the same input partition, and is refused
otherwise. In particular requests for one input partition never take anything from those for another one. -/
theorem C04_broadcast_serves_each_consumer_once (b : BroadcastExec) (hb : 0 < b.inputPartitions) (calls : List Nat) (k p : Nat)
    (hk : calls[k]? = some p) :
    (b.run BroadcastSt.init calls).2[k]? = some (
      if ((calls.take k).filter (fun q => q % b.inputPartitions = p % b.inputPartitions)).length < b.consumerTasks
      then .ok (p % b.inputPartitions) else .error (.internal "Too many consumers")) :=
  broadcast_run_get b hb calls _ k p hk

/-- A further request beyond the consumers it was built for is refused, not served with partial data. -/
example : ((BroadcastExec.mk 1 2).run BroadcastSt.init [0, 1, 2]).2
    = [.ok 0, .ok 0, .error (.internal "Too many consumers")] := by decide

end DD
