import Verif.Model.InProcess
import Verif.Props.Pool
import Verif.Props.Handlers
import Mathlib.Data.List.Induction
/-
C63: tasks of one stage that run in one process. A task that shares its boundaries with no other task reads its own partitions
and nothing else; tasks that share a coalesce do too. Two tasks of a stage in the coordinator's own process share their shuffles
and broadcasts, and cannot both read them.
-/
namespace DD.InProcess

open Pool

/-- The history consists of calls that the tasks of a stage of `T` tasks make when they execute partitions of the boundary, and of
polls. -/
def Legal (b : Boundary) (T : Nat) (steps : List Step) : Prop :=
  ∀ s ∈ steps, ∀ c, s.op = .execute c → s.task < T ∧ ∃ q, (∀ e, b = .fan e → q < e.outPartitions) ∧
    ∃ p ∈ b.pulls ⟨s.task, T⟩ q, c = callOf p

/-- Task `t` asked for the `k`-th stream of object `n`, with call `c`. -/
structure Asked (st : Node → Copy) (n : Node) (k t : Nat) (c : Call) : Prop where
  owner : (st n).owners[k]? = some t
  call : (st n).pool.handles[k]? = some c

/-! ### What one object sees -/

theorem poll_handles (s : Pool.State) (k : Nat) : (poll s k).handles = s.handles := by
  unfold poll
  split
  · split
    · rfl
    · split
      · rfl
      · rfl
      · split <;> rfl
  · rfl

/-- The operations of the tasks that use object `n`. -/
def opsOf (node : Nat → Node) (n : Node) (steps : List Step) : List Pool.Op :=
  (steps.filter fun s => n = node s.task).map (·.op)

/-- An object's pool saw exactly the operations of the tasks that use it, its owners are those who asked. -/
theorem run_copy (srv : Server) (w nt : Nat) (node : Nat → Node) (n : Node) (steps : List Step) :
    (run srv w nt node steps n).pool = Pool.run srv w nt (opsOf node n steps) ∧
    (run srv w nt node steps n).owners.length = (run srv w nt node steps n).pool.handles.length ∧
    ∀ k t c, Asked (run srv w nt node steps) n k t c → node t = n ∧ (⟨t, .execute c⟩ : Step) ∈ steps := by
  induction steps using List.reverseRecOn with
  | nil =>
    refine ⟨rfl, rfl, ?_⟩
    rintro k t c ⟨ho, _⟩
    simp [run] at ho
  | append_singleton steps s ih =>
    obtain ⟨ih1, ih2, ih3⟩ := ih
    have hrun : run srv w nt node (steps ++ [s]) n =
        if n = node s.task then (run srv w nt node steps n).step srv w nt s else run srv w nt node steps n := by
      simp [run, List.foldl_append]
    have hmono : ∀ k t c, Asked (run srv w nt node steps) n k t c → node t = n ∧ (⟨t, .execute c⟩ : Step) ∈ steps ++ [s] := by
      intro k t c h
      obtain ⟨h1, h2⟩ := ih3 k t c h
      exact ⟨h1, List.mem_append_left _ h2⟩
    by_cases hn : n = node s.task
    · rw [if_pos hn] at hrun
      have hops : opsOf node n (steps ++ [s]) = opsOf node n steps ++ [s.op] := by
        simp [opsOf, List.filter_append, hn]
      have hpr : Pool.run srv w nt (opsOf node n steps ++ [s.op]) =
          Pool.step srv w nt (run srv w nt node steps n).pool s.op := by
        rw [ih1]; simp [Pool.run, List.foldl_append]
      rw [hops, hpr]
      obtain ⟨task, op⟩ := s
      dsimp only at hn hrun ⊢
      cases op with
      | execute call =>
        simp only [Copy.step] at hrun
        rcases he : execute srv w nt (run srv w nt node steps n).pool call with e | p
        · rw [he] at hrun
          dsimp only at hrun
          simp only [Pool.step, he]
          refine ⟨by rw [hrun], by rw [hrun]; exact ih2, ?_⟩
          rintro k t c ⟨h1, h2⟩
          rw [hrun] at h1 h2
          exact hmono k t c ⟨h1, h2⟩
        · rw [he] at hrun
          dsimp only at hrun
          have hh : p.handles = (run srv w nt node steps n).pool.handles ++ [call] := by
            unfold execute at he
            split at he
            · simp at he
            · split at he
              · simp at he
              · simp only [Except.ok.injEq] at he
                subst he
                split <;> rfl
          simp only [Pool.step, he]
          refine ⟨by rw [hrun], by rw [hrun]; simp [hh, ih2], ?_⟩
          rintro k t c ⟨h1, h2⟩
          rw [hrun] at h1 h2
          dsimp only at h1 h2
          rw [hh] at h2
          rcases Nat.lt_or_ge k (run srv w nt node steps n).owners.length with hk | hk
          · rw [List.getElem?_append_left hk] at h1
            rw [List.getElem?_append_left (by omega)] at h2
            exact hmono k t c ⟨h1, h2⟩
          · rw [List.getElem?_append_right hk] at h1
            rw [List.getElem?_append_right (by omega)] at h2
            obtain ⟨d, hd⟩ : ∃ d, k - (run srv w nt node steps n).owners.length = d := ⟨_, rfl⟩
            rw [← ih2] at h2
            rw [hd] at h1 h2
            cases d with
            | zero =>
              simp at h1 h2
              subst h1; subst h2
              exact ⟨hn.symm, by simp⟩
            | succ d => simp at h1
      | poll k =>
        simp only [Copy.step] at hrun
        simp only [Pool.step]
        refine ⟨by rw [hrun], by rw [hrun]; simp only [poll_handles]; exact ih2, ?_⟩
        rintro k' t c ⟨h1, h2⟩
        rw [hrun] at h1 h2
        simp only [poll_handles] at h1 h2
        exact hmono k' t c ⟨h1, h2⟩
    · rw [if_neg hn] at hrun
      have hops : opsOf node n (steps ++ [s]) = opsOf node n steps := by
        simp [opsOf, List.filter_append, hn]
      rw [hops, hrun]
      refine ⟨ih1, ih2, ?_⟩
      rintro k t c ⟨h1, h2⟩
      rw [hrun] at h1 h2
      exact hmono k t c ⟨h1, h2⟩

/-! ### The calls of a boundary -/

theorem fan_call {e : FanExec} {t T q : Nat} {p : Pull} (hp : p ∈ (Boundary.fan e).pulls ⟨t, T⟩ q) :
    (callOf p).lo = e.outPartitions * t ∧ (callOf p).hi = e.outPartitions * t + e.outPartitions ∧
    (callOf p).partition = e.outPartitions * t + q := by
  simp only [Boundary.pulls, FanExec.execute, List.mem_map] at hp
  obtain ⟨j, _, rfl⟩ := hp
  exact ⟨rfl, rfl, rfl⟩

theorem coalesce_call {e : CoalesceExec} {t T q : Nat} {p : Pull} (hp : p ∈ (Boundary.coalesce e).pulls ⟨t, T⟩ q) :
    (callOf p).lo = 0 ∧ (callOf p).hi = e.outPartitions / max (divCeil e.inputTasks T) 1 ∧
    (callOf p).partition < (callOf p).hi ∧ t < T ∧
    (taskGroup e.inputTasks t T).start ≤ (callOf p).task ∧
    (callOf p).task < (taskGroup e.inputTasks t T).start + (taskGroup e.inputTasks t T).len := by
  simp only [Boundary.pulls] at hp
  rcases he : e.execute ⟨t, T⟩ q with err | l
  · rw [he] at hp; simp at hp
  · rw [he] at hp
    dsimp only at hp
    unfold CoalesceExec.execute at he
    split at he
    · simp at he
    · rename_i ht
      dsimp only at he
      split at he
      · simp at he
      · rename_i hne
        split at he
        · simp only [Except.ok.injEq] at he; subst he; simp at hp
        · rename_i hlen
          split at he
          · simp at he
          · simp only [Except.ok.injEq] at he
            subst he
            simp only [List.mem_singleton] at hp
            subst hp
            refine ⟨rfl, rfl, Nat.mod_lt _ (Nat.pos_of_ne_zero hne), by simpa using ht, ?_, ?_⟩
            · exact Nat.le_add_right _ _
            · exact Nat.add_lt_add_left (by simpa using hlen) _

/-- Two tasks of a coalesce never read the same producer task. -/
theorem groups_disjoint (n T t t' x : Nat) (ht : t < T)
    (h : (taskGroup n t T).start ≤ x ∧ x < (taskGroup n t T).start + (taskGroup n t T).len)
    (h' : (taskGroup n t' T).start ≤ x ∧ x < (taskGroup n t' T).start + (taskGroup n t' T).len) : t = t' := by
  have hT : T ≠ 0 := by omega
  have key : ∀ a b, a < b → (taskGroup n a T).start + (taskGroup n a T).len ≤ (taskGroup n b T).start := by
    intro a b hab
    simp only [taskGroup, hT, if_false]
    obtain ⟨d, rfl⟩ : ∃ d, b = a + 1 + d := ⟨b - a - 1, by omega⟩
    have hmul : (a + 1 + d) * (n / T) = a * (n / T) + n / T + d * (n / T) := by
      rw [Nat.add_mul, Nat.add_mul, Nat.one_mul]
    rw [hmul]
    split <;> omega
  rcases Nat.lt_trichotomy t t' with hlt | rfl | hlt
  · have := key t t' hlt; omega
  · rfl
  · have := key t' t hlt; omega

section
variable (srv : Server) (hsrv : Honest srv) (w nt : Nat) (T : Nat) (node : Nat → Node) (steps : List Step)

theorem asked_of_handle {srv : Server} {w nt : Nat} {node : Nat → Node} {steps : List Step} {n : Node} {k : Nat} {c : Call}
    (h : (run srv w nt node steps n).pool.handles[k]? = some c) : ∃ t, Asked (run srv w nt node steps) n k t c := by
  have hlen := (run_copy srv w nt node n steps).2.1
  have hk : k < (run srv w nt node steps n).owners.length := by
    rw [hlen]
    exact (List.getElem?_eq_some_iff.mp h).1
  exact ⟨_, List.getElem?_eq_getElem hk, h⟩

include hsrv in
/-- Whoever uses one object with one range per producer task reads what it asked for, or finds that the same stream was taken
before by another stream request for it. -/
theorem same_ranges_read (n : Node) (hr : SameRanges (run srv w nt node steps n).pool.handles) (k t : Nat) (c : Call)
    (r : Except Err Stream) (ha : Asked (run srv w nt node steps) n k t c)
    (hin : ∀ k t c, Asked (run srv w nt node steps) n k t c → c.lo ≤ c.partition ∧ c.partition < c.hi)
    (ho : (run srv w nt node steps n).pool.outcome k = some r) :
    match (generalizing := false) r with
    | .ok st => st = ⟨c.task, c.partition⟩
    | .error e => srv c.task c.lo c.hi = .error e ∨
        ∃ k' t' c', k' ≠ k ∧ Asked (run srv w nt node steps) n k' t' c' ∧ c'.task = c.task ∧ c'.partition = c.partition ∧
          (run srv w nt node steps n).pool.outcome k' = some (.ok ⟨c.task, c.partition⟩) := by
  have hp := (run_copy srv w nt node n steps).1
  have hc := ha.call
  have hbase := C07_caller_gets_its_partition srv hsrv w nt (opsOf node n steps) (by rw [← hp]; exact hr) k c r
    (by rw [← hp]; exact hc) (hin k t c ha) (by rw [← hp]; exact ho)
  cases r with
  | ok st => exact hbase
  | error e =>
    dsimp only at hbase
    rw [← hp] at hbase
    rcases hbase with h | ⟨k', hk', ho'⟩
    · exact .inl h
    · right
      have hinv := run_inv srv hsrv w nt (opsOf node n steps)
      rw [← hp] at hinv
      have hlt := hinv.outcomeLt k' _ ho'
      obtain ⟨c', hc'⟩ : ∃ c', (run srv w nt node steps n).pool.handles[k']? = some c' :=
        ⟨_, List.getElem?_eq_getElem hlt⟩
      obtain ⟨t', ha'⟩ := asked_of_handle hc'
      have h2 := C07_caller_gets_its_partition srv hsrv w nt (opsOf node n steps) (by rw [← hp]; exact hr) k' c' _
        (by rw [← hp]; exact hc') (hin k' t' c' ha') (by rw [← hp]; exact ho')
      simp only [Stream.mk.injEq] at h2
      exact ⟨k', t', c', hk', ha', h2.1.symm, h2.2.symm, ho'⟩

/-! ### C63 -/

include hsrv in
/-- **C63 (part).** A task that uses its boundary object alone reads, for every stream it asked for, the partition it asked for; or it is
told the worker's own error; or it had taken that very stream before. Nothing another task does can change it. This covers every task
on another worker and, when it is the only one of its stage, the task in the coordinator's own process. -/
theorem C63_lone_task_reads_its_partitions_partial (b : Boundary) (hl : Legal b T steps) (t : Nat)
    (halone : ∀ t' < T, node t' = node t → t' = t) (k : Nat) (c : Call) (r : Except Err Stream)
    (ha : Asked (run srv w nt node steps) (node t) k t c)
    (ho : (run srv w nt node steps (node t)).pool.outcome k = some r) :
    match (generalizing := false) r with
    | .ok st => st = ⟨c.task, c.partition⟩
    | .error e => srv c.task c.lo c.hi = .error e ∨
        ∃ k' c', k' ≠ k ∧ Asked (run srv w nt node steps) (node t) k' t c' ∧ c'.task = c.task ∧ c'.partition = c.partition ∧
          (run srv w nt node steps (node t)).pool.outcome k' = some (.ok ⟨c.task, c.partition⟩) := by
  have hown : ∀ k' t' c', Asked (run srv w nt node steps) (node t) k' t' c' → t' = t ∧
      ∃ q, (∀ e, b = .fan e → q < e.outPartitions) ∧ ∃ p ∈ b.pulls ⟨t, T⟩ q, c' = callOf p := by
    intro k' t' c' h
    obtain ⟨h1, h2⟩ := (run_copy srv w nt node (node t) steps).2.2 k' t' c' h
    obtain ⟨h3, h4⟩ := hl _ h2 c' rfl
    dsimp only at h3 h4
    have := halone t' h3 h1
    subst this
    exact ⟨rfl, h4⟩
  have hshape : ∀ k' t' c', Asked (run srv w nt node steps) (node t) k' t' c' →
      c'.lo ≤ c'.partition ∧ c'.partition < c'.hi ∧ ∀ k'' t'' c'', Asked (run srv w nt node steps) (node t) k'' t'' c'' →
        c'.lo = c''.lo ∧ c'.hi = c''.hi := by
    intro k' t' c' h
    obtain ⟨_, q, hq, p, hp, rfl⟩ := hown k' t' c' h
    cases b with
    | fan e =>
      have h1 := fan_call hp
      have h2 := hq e rfl
      refine ⟨by omega, by omega, ?_⟩
      intro k'' t'' c'' h''
      obtain ⟨_, q', _, p', hp', rfl⟩ := hown k'' t'' c'' h''
      have h3 := fan_call hp'
      omega
    | coalesce e =>
      have h1 := coalesce_call hp
      refine ⟨by omega, h1.2.2.1, ?_⟩
      intro k'' t'' c'' h''
      obtain ⟨_, q', _, p', hp', rfl⟩ := hown k'' t'' c'' h''
      have h3 := coalesce_call hp'
      omega
  have hr : SameRanges (run srv w nt node steps (node t)).pool.handles := by
    intro c₁ h₁ c₂ h₂ _
    obtain ⟨k₁, hk₁⟩ := List.getElem?_of_mem h₁
    obtain ⟨k₂, hk₂⟩ := List.getElem?_of_mem h₂
    obtain ⟨t₁, ha₁⟩ := asked_of_handle hk₁
    obtain ⟨t₂, ha₂⟩ := asked_of_handle hk₂
    exact (hshape k₁ t₁ c₁ ha₁).2.2 k₂ t₂ c₂ ha₂
  have := same_ranges_read srv hsrv w nt node steps (node t) hr k t c r ha
    (fun k' t' c' h => ⟨(hshape k' t' c' h).1, (hshape k' t' c' h).2.1⟩) ho
  cases r with
  | ok st => exact this
  | error e =>
    rcases this with h | ⟨k', t', c', hk', ha', h1, h2, h3⟩
    · exact .inl h
    · have := (hown k' t' c' ha').1
      subst this
      exact .inr ⟨k', c', hk', ha', h1, h2, h3⟩

include hsrv in
/-- **C63 (part).** Tasks that share a coalesce, however many, read what they would read with a coalesce of their own. -/
theorem C63_shared_coalesce_partial (e : CoalesceExec) (hl : Legal (.coalesce e) T steps) (n : Node) (k t : Nat) (c : Call)
    (r : Except Err Stream) (ha : Asked (run srv w nt node steps) n k t c)
    (ho : (run srv w nt node steps n).pool.outcome k = some r) :
    match (generalizing := false) r with
    | .ok st => st = ⟨c.task, c.partition⟩
    | .error e => srv c.task c.lo c.hi = .error e ∨
        ∃ k' c', k' ≠ k ∧ Asked (run srv w nt node steps) n k' t c' ∧ c'.task = c.task ∧ c'.partition = c.partition ∧
          (run srv w nt node steps n).pool.outcome k' = some (.ok ⟨c.task, c.partition⟩) := by
  have hown : ∀ k' t' c', Asked (run srv w nt node steps) n k' t' c' →
      ∃ q, ∃ p ∈ (Boundary.coalesce e).pulls ⟨t', T⟩ q, c' = callOf p := by
    intro k' t' c' h
    obtain ⟨_, h2⟩ := (run_copy srv w nt node n steps).2.2 k' t' c' h
    obtain ⟨_, q, _, hp⟩ := hl _ h2 c' rfl
    exact ⟨q, hp⟩
  have hin : ∀ k' t' c', Asked (run srv w nt node steps) n k' t' c' → c'.lo ≤ c'.partition ∧ c'.partition < c'.hi := by
    intro k' t' c' h
    obtain ⟨q, p, hp, rfl⟩ := hown k' t' c' h
    have := coalesce_call hp
    omega
  have hr : SameRanges (run srv w nt node steps n).pool.handles := by
    intro c₁ h₁ c₂ h₂ _
    obtain ⟨k₁, hk₁⟩ := List.getElem?_of_mem h₁
    obtain ⟨k₂, hk₂⟩ := List.getElem?_of_mem h₂
    obtain ⟨t₁, ha₁⟩ := asked_of_handle hk₁
    obtain ⟨t₂, ha₂⟩ := asked_of_handle hk₂
    obtain ⟨q₁, p₁, hp₁, rfl⟩ := hown _ _ _ ha₁
    obtain ⟨q₂, p₂, hp₂, rfl⟩ := hown _ _ _ ha₂
    have h1 := coalesce_call hp₁
    have h2 := coalesce_call hp₂
    omega
  have := same_ranges_read srv hsrv w nt node steps n hr k t c r ha hin ho
  cases r with
  | ok st => exact this
  | error err =>
    rcases this with h | ⟨k', t', c', hk', ha', h1, h2, h3⟩
    · exact .inl h
    · obtain ⟨q, p, hp, hcp⟩ := hown k t c ha
      obtain ⟨q', p', hp', hcp'⟩ := hown k' t' c' ha'
      have g := coalesce_call hp
      have g' := coalesce_call hp'
      rw [← hcp] at g
      rw [← hcp', h1] at g'
      have : t' = t := groups_disjoint e.inputTasks T t' t c.task g'.2.2.2.1 g'.2.2.2.2 g.2.2.2.2
      subst this
      exact .inr ⟨k', c', hk', ha', h1, h2, h3⟩

include hsrv in
/-- **C63 is false for shuffles and broadcasts.** When two tasks of a stage share the object of a shuffle or broadcast, and both ask
for their own `q`-th partition of the same producer, then in every history, at most one of them gets a stream: if both were polled,
one has an error. -/
theorem C63_shared_shuffle_false (e : FanExec) (hl : Legal (.fan e) T steps) (n : Node) (k k' t t' q : Nat)
    (c c' : Call) (htt : t ≠ t') (ha : Asked (run srv w nt node steps) n k t c)
    (ha' : Asked (run srv w nt node steps) n k' t' c') (hj : c.task = c'.task)
    (hq : c.partition = e.outPartitions * t + q) (hq' : c'.partition = e.outPartitions * t' + q)
    (r r' : Except Err Stream) (ho : (run srv w nt node steps n).pool.outcome k = some r)
    (ho' : (run srv w nt node steps n).pool.outcome k' = some r') :
    (∃ err, r = .error err) ∨ ∃ err, r' = .error err := by
  have hp := (run_copy srv w nt node n steps).1
  have hinv := run_inv srv hsrv w nt (opsOf node n steps)
  rw [← hp] at hinv
  have hlo : ∀ k t c, Asked (run srv w nt node steps) n k t c → c.lo = e.outPartitions * t := by
    intro k t c h
    obtain ⟨_, h2⟩ := (run_copy srv w nt node n steps).2.2 k t c h
    obtain ⟨_, q, _, p, hpp, rfl⟩ := hl _ h2 c rfl
    exact (fan_call hpp).1
  have h1 := hlo k t c ha
  have h2 := hlo k' t' c' ha'
  cases r with
  | error err => exact .inl ⟨err, rfl⟩
  | ok st =>
    cases r' with
    | error err => exact .inr ⟨err, rfl⟩
    | ok st' =>
      exfalso
      obtain ⟨lo, hi, hm, hlt, hst⟩ := hinv.result k c _ ha.call ho (by omega)
      obtain ⟨lo', hi', hm', hlt', hst'⟩ := hinv.result k' c' _ ha'.call ho' (by omega)
      have heq : (lo, hi) = (lo', hi') := by
        rw [← hj] at hm'
        have hnd := hinv.reqNodup
        have := List.inj_on_of_nodup_map hnd hm hm' rfl
        exact congrArg Prod.snd this
      obtain ⟨rfl, rfl⟩ := Prod.mk.inj heq
      have hss : st = st' := by
        rw [hst, hst', hj, h1, h2, hq, hq']
        congr 2
        omega
      rw [← hss] at ho'
      have hkk := hinv.unique k k' st ho ho'
      subst hkk
      have := ha.owner.symm.trans ha'.owner
      exact htt (Option.some.inj this)

end

/-! ### Where tasks are placed -/

section
variable {Url : Type} [DecidableEq Url]

/-- **C63.** Tasks on different URLs, and tasks that are not at the coordinator's own URL, have boundary objects of their own. -/
theorem C63_shared_iff_both_local (self : Option Url) (urls : List Url) (t t' : Nat) (htt : t ≠ t') :
    nodeOf self urls t = nodeOf self urls t' ↔ ∃ u, self = some u ∧ urls[t]? = some u ∧ urls[t']? = some u := by
  unfold nodeOf
  rcases self with _ | s
  · simp [htt]
  · rcases h : urls[t]? with _ | u <;> rcases h' : urls[t']? with _ | u'
    · simp [htt]
    · by_cases e : s = u' <;> simp [e, htt]
    · by_cases e : s = u <;> simp [e, htt]
    · by_cases e : s = u
      · subst e
        by_cases e' : s = u'
        · subst e'; simp
        · simp [e', eq_comm (a := u')]
      · by_cases e' : s = u'
        · subst e'
          simp [e, eq_comm (a := u)]
        · simp [e, e', htt]
          intro h; exact absurd h.symm e

/-- **C63.** The default routing keeps the tasks of a stage apart as long as there are no more of them than workers. -/
theorem C63_default_routing_apart (self : Option Url) (urls us : List Url) (hnd : urls.Nodup) (start T : Nat)
    (hT : T ≤ urls.length) (hr : randomRouting (.ok urls) start T = .ok us) (t t' : Nat) (ht : t < T) (ht' : t' < T)
    (h : nodeOf self us t = nodeOf self us t') : t = t' := by
  by_contra htt
  obtain ⟨u, _, h1, h2⟩ := (C63_shared_iff_both_local self us t t' htt).mp h
  have hne : urls ≠ [] := by rintro rfl; simp at hT; omega
  obtain ⟨us', hr', _, _, hat⟩ := C43_one_known_url_per_task urls start T hne
  rw [hr] at hr'
  obtain rfl : us = us' := by simpa using hr'
  rw [hat t ht] at h1
  rw [hat t' ht'] at h2
  have hn : 0 < urls.length := by omega
  have hm : (start + t) % urls.length = (start + t') % urls.length := by
    have e1 := List.getElem?_eq_some_iff.mp h1
    have e2 := List.getElem?_eq_some_iff.mp h2
    obtain ⟨l1, e1⟩ := e1
    obtain ⟨l2, e2⟩ := e2
    exact (List.Nodup.getElem_inj_iff hnd).mp (e1.trans e2.symm)
  have h3 : t ≡ t' [MOD urls.length] := Nat.ModEq.add_left_cancel' start hm
  exact htt (Nat.ModEq.eq_of_lt_of_lt h3 (by omega) (by omega))

/-- **C63.** With a limit of tasks per stage of at least twice the number of workers, every full stage has two tasks in the process of a
coordinator that is a worker itself. -/
theorem C63_crowded_stage_shares (self : Url) (urls us : List Url) (hself : self ∈ urls) (start T : Nat)
    (hT : 2 * urls.length ≤ T) (hr : randomRouting (.ok urls) start T = .ok us) :
    ∃ t t', t < T ∧ t' < T ∧ t ≠ t' ∧ nodeOf (some self) us t = .shared ∧ nodeOf (some self) us t' = .shared := by
  have hne : urls ≠ [] := fun h => by rw [h] at hself; simp at hself
  obtain ⟨us', hr', _, _, hat⟩ := C43_one_known_url_per_task urls start T hne
  rw [hr] at hr'
  obtain rfl : us = us' := by simpa using hr'
  obtain ⟨a, ha⟩ := List.getElem?_of_mem hself
  have hal : a < urls.length := (List.getElem?_eq_some_iff.mp ha).1
  have hn : 0 < urls.length := by omega
  -- the first task from `start` on that falls on position `a`
  obtain ⟨t, ht, hta⟩ : ∃ t < urls.length, (start + t) % urls.length = a := by
    refine ⟨(a + (urls.length - start % urls.length)) % urls.length, Nat.mod_lt _ hn, ?_⟩
    have h1 : start % urls.length < urls.length := Nat.mod_lt _ hn
    rw [Nat.add_mod, Nat.mod_mod, ← Nat.add_mod]
    have h2 : start + (a + (urls.length - start % urls.length)) = a + urls.length * (start / urls.length + 1) := by
      have := Nat.div_add_mod start urls.length
      rw [Nat.mul_add, Nat.mul_one]
      omega
    rw [h2, Nat.add_mul_mod_self_left, Nat.mod_eq_of_lt hal]
  have hshared : ∀ i < T, (start + i) % urls.length = a → nodeOf (some self) us i = .shared := by
    intro i hi hia
    have := hat i hi
    rw [hia, ha] at this
    simp [nodeOf, this]
  refine ⟨t, t + urls.length, by omega, by omega, by omega, hshared t (by omega) hta, hshared _ (by omega) ?_⟩
  rw [← Nat.add_assoc, Nat.add_mod_right, hta]

end

/-! ### A concrete case -/

/-- A shuffle of one producer task into two partitions per consumer task. -/
def demoShuffle : FanExec := ⟨2, 1⟩

/-- Both tasks of the consuming stage run at URL 7, the coordinator's. Each asks for its first partition; task 1 is polled first. -/
def demoSteps : List Step :=
  [⟨0, .execute ⟨0, 2, 0, 0⟩⟩, ⟨1, .execute ⟨2, 4, 0, 2⟩⟩, ⟨1, .poll 1⟩, ⟨0, .poll 0⟩]

theorem demo_legal : Legal (.fan demoShuffle) 2 demoSteps := by
  intro s hs c hc
  simp only [demoSteps, List.mem_cons, List.not_mem_nil, or_false] at hs
  rcases hs with rfl | rfl | rfl | rfl
  · simp at hc; subst hc
    exact ⟨by decide, 0, by rintro e ⟨⟩; decide, ⟨0, 0, 0, 2⟩, by decide, rfl⟩
  · simp at hc; subst hc
    exact ⟨by decide, 0, by rintro e ⟨⟩; decide, ⟨0, 2, 2, 4⟩, by decide, rfl⟩
  · simp at hc
  · simp at hc

/-- **C63 is false.** Task 1 asks for partition 2 and is given the rows of partition 0, without an error; task 0, whose rows they are,
is told that they were already consumed. -/
theorem C63_rows_of_another_task_false :
    let st := run goodServer 1 1 (nodeOf (some 7) [7, 7]) demoSteps
    Legal (.fan demoShuffle) 2 demoSteps ∧
    Asked st .shared 0 0 ⟨0, 2, 0, 0⟩ ∧ Asked st .shared 1 1 ⟨2, 4, 0, 2⟩ ∧
    (st .shared).pool.outcome 1 = some (.ok ⟨0, 0⟩) ∧
    (st .shared).pool.outcome 0 = some (.error (.internal "already consumed")) :=
  ⟨demo_legal, ⟨rfl, rfl⟩, ⟨rfl, rfl⟩, rfl, rfl⟩

/-- the same history with the tasks on different workers: each reads its own partition -/
example : let st := run goodServer 1 1 (nodeOf (some 7) [7, 8]) [⟨0, .execute ⟨0, 2, 0, 0⟩⟩, ⟨1, .execute ⟨2, 4, 0, 2⟩⟩, ⟨1, .poll 0⟩, ⟨0, .poll 0⟩]
    (st .shared).pool.outcome 0 = some (.ok ⟨0, 0⟩) ∧ (st (.own 1)).pool.outcome 0 = some (.ok ⟨0, 2⟩) := ⟨rfl, rfl⟩

/-- four tasks on two workers, one of them the coordinator: the limit of tasks per stage is twice the number of workers -/
example : randomRouting (.ok [7, 8]) 1 4 = .ok [8, 7, 8, 7] ∧ nodeOf (some 7) [8, 7, 8, 7] 1 = .shared ∧
    nodeOf (some 7) [8, 7, 8, 7] 3 = .shared := ⟨rfl, rfl, rfl⟩

/-- two tasks in one process share a coalesce of four producer tasks and read different producers -/
example : let st := run goodServer 4 4 (nodeOf (some 7) [7, 7]) [⟨0, .execute ⟨0, 1, 0, 0⟩⟩, ⟨1, .execute ⟨0, 1, 2, 0⟩⟩, ⟨1, .poll 1⟩, ⟨0, .poll 0⟩]
    (Boundary.coalesce ⟨2, 4⟩).pulls ⟨0, 2⟩ 0 = [⟨0, 0, 0, 1⟩] ∧ (Boundary.coalesce ⟨2, 4⟩).pulls ⟨1, 2⟩ 0 = [⟨2, 0, 0, 1⟩] ∧
    (st .shared).pool.outcome 0 = some (.ok ⟨0, 0⟩) ∧ (st .shared).pool.outcome 1 = some (.ok ⟨2, 0⟩) := by decide

end DD.InProcess
