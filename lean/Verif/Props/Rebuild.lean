import Verif.Model.Rebuild
import Verif.Props.Routing
/-
An exchange that is rebuilt still delivers everything once (C88).
-/
namespace DD.Rebuild

/-- What a consumer task reads in all its partitions; nothing where it fails. -/
def taskReads (x : Exchange) (T i : Nat) : List (Nat × Nat) :=
  (List.range x.declared).flatMap fun q => (x.reads ⟨i, T⟩ q).toOption.getD []

/-- The exchange delivers the plan below once: nothing fails; through `coalesce` all consumer tasks together read every partition of
every task once; through `shuffle` every bucket of every task; through `broadcast` every consumer task reads every partition of every
task once. -/
def Delivers (x : Exchange) (T : Nat) : Prop :=
  (∀ i < T, ∀ q < x.declared, ∃ rs, x.reads ⟨i, T⟩ q = .ok rs) ∧
  match x.sort with
  | .coalesce => ((List.range T).flatMap (taskReads x T)).Perm (allPairs x.tasks x.parts)
  | .shuffle => ((List.range T).flatMap (taskReads x T)).Perm (allPairs x.tasks (x.declared * T))
  | .broadcast => ∀ i < T, (taskReads x T i).Perm (allPairs x.tasks x.parts)

/-- The partitions an exchange has to declare. -/
def Fits (x : Exchange) (T : Nat) : Prop :=
  match x.sort with
  | .coalesce => x.declared = x.parts * max (divCeil x.tasks T) 1
  | .shuffle => True
  | .broadcast => x.declared = x.parts

theorem flatMap_comm_perm {α β γ : Type} (f : α → β → γ) (l : List α) (k : List β) :
    (l.flatMap fun a => k.map fun b => f a b).Perm (k.flatMap fun b => l.map fun a => f a b) := by
  induction l with
  | nil => simp
  | cons a l ih =>
    simp only [List.flatMap_cons, List.map_cons]
    have h : ∀ (k : List β) , (k.flatMap fun b => f a b :: l.map fun a => f a b).Perm
        (k.map (f a) ++ k.flatMap fun b => l.map fun a => f a b) := by
      intro k
      induction k with
      | nil => simp
      | cons b k ihk =>
        simp only [List.flatMap_cons, List.map_cons, List.cons_append]
        refine List.Perm.cons _ ?_
        refine (List.Perm.append_left _ ihk).trans ?_
        rw [← List.append_assoc, ← List.append_assoc]
        exact List.Perm.append_right _ List.perm_append_comm
    exact (List.Perm.append_left _ ih).trans (h k).symm

theorem range_blocks (P T : Nat) : ((List.range T).flatMap fun i => (List.range P).map fun q => P * i + q) = List.range (P * T) := by
  induction T with
  | zero => simp
  | succ T ih =>
    rw [List.range_succ, List.flatMap_append, ih, Nat.mul_succ, List.range_add]
    simp

theorem toOption_ok {α : Type} (a : α) : (Except.ok a : Except Err α).toOption.getD = fun _ => a := rfl

theorem fan_reads (P N i T : Nat) (f : Nat → Nat) :
    ((List.range P).flatMap fun q => (FanExec.execute ⟨P, N⟩ ⟨i, T⟩ q).map fun r => (r.task, f r.partition)).Perm
      ((List.range N).flatMap fun j => (List.range P).map fun q => (j, f (P * i + q))) := by
  simp only [FanExec.execute, List.map_map]
  exact flatMap_comm_perm (fun q j => (j, f (P * i + q))) _ _

/-- An exchange that declares what fits delivers everything once. -/
theorem delivers_of_fits {x : Exchange} {T : Nat} (hT : 0 < T) (hp : x.sort = .broadcast → 0 < x.parts) (h : Fits x T) : Delivers x T := by
  unfold Fits at h
  unfold Delivers
  cases hs : x.sort with
  | coalesce =>
    rw [hs] at h
    simp only at h
    obtain ⟨e, he, hok, hall⟩ := C01_coalesce_exactly_once x.parts x.tasks T hT
    obtain rfl : (⟨x.declared, x.tasks⟩ : CoalesceExec) = e := by
      simp only [CoalesceExec.tryNew, if_neg (Nat.ne_of_gt hT), Except.ok.injEq] at he
      rw [← he, h]
    refine ⟨fun i hi q hq => ?_, ?_⟩
    · obtain ⟨pulls, hpulls, _⟩ := hok i hi q hq
      exact ⟨_, by simp only [Exchange.reads, hs, hpulls]; rfl⟩
    · simp only
      rw [← hall]
      refine List.Perm.of_eq ?_
      unfold allReads
      refine congrArg (fun g => (List.range T).flatMap g) ?_
      funext i
      unfold taskReads
      refine congrArg (fun g => (List.range x.declared).flatMap g) ?_
      funext q
      simp only [Exchange.reads, hs]
      cases CoalesceExec.execute ⟨x.declared, x.tasks⟩ ⟨i, T⟩ q with
      | ok ps => rfl
      | error e => rfl
  | shuffle =>
    refine ⟨fun i _ q _ => ⟨_, by simp only [Exchange.reads, hs]; rfl⟩, ?_⟩
    simp only
    have h1 : ((List.range T).flatMap (taskReads x T)).Perm
        ((List.range T).flatMap fun i => (List.range x.tasks).flatMap fun j => (List.range x.declared).map fun q => (j, x.declared * i + q)) := by
      refine List.Perm.flatMap_left _ fun i _ => ?_
      unfold taskReads
      simp only [Exchange.reads, hs]
      exact fan_reads x.declared x.tasks i T id
    refine h1.trans ?_
    unfold allPairs
    rw [← range_blocks]
    have h2 : ∀ (js is : List Nat), (is.flatMap fun i => js.flatMap fun j => (List.range x.declared).map fun q => (j, x.declared * i + q)).Perm
        (js.flatMap fun j => is.flatMap fun i => (List.range x.declared).map fun q => (j, x.declared * i + q)) := by
      intro js is
      induction is with
      | nil => simp
      | cons i is ih =>
        simp only [List.flatMap_cons]
        refine (List.Perm.append_left _ ih).trans ?_
        exact (List.flatMap_append_perm js _ _)
    refine (h2 _ _).trans (List.Perm.of_eq ?_)
    refine congrArg (fun g => (List.range x.tasks).flatMap g) ?_
    funext j
    rw [List.map_flatMap]
    refine congrArg (fun g => (List.range T).flatMap g) ?_
    funext i
    rw [List.map_map]; rfl
  | broadcast =>
    rw [hs] at h
    simp only at h
    have hpos := hp hs
    have hne : ¬ x.parts = 0 := by omega
    refine ⟨fun i _ q _ => ⟨_, by simp only [Exchange.reads, hs, if_neg hne]; rfl⟩, fun i _ => ?_⟩
    unfold taskReads
    simp only [Exchange.reads, hs, if_neg hne, h]
    refine (fan_reads x.parts x.tasks i T (· % x.parts)).trans (List.Perm.of_eq ?_)
    unfold allPairs
    refine congrArg (fun g => (List.range x.tasks).flatMap g) ?_
    funext j
    refine List.map_congr_left fun q hq => ?_
    rw [List.mem_range] at hq
    rw [Nat.mul_add_mod, Nat.mod_eq_of_lt hq]

/-- What a rule does that neither changes the number of partitions below the exchange, nor, below a gathering with several consumers,
the number of tasks. -/
def Op.Keeps (T parts : Nat) (s : Kind) (tasks : Nat) : Op → Prop
  | .children cs => ∀ c ∈ cs, c = parts
  | .stage p n _ => p = parts ∧ 0 < n ∧ (s = .coalesce → 1 < T → n = tasks)
  | .fetch _ => True

theorem divCeil_one (n : Nat) : divCeil n 1 = n := by unfold divCeil; simp

/-- **C88, partial.** An exchange that is built for a plan and rebuilt as often as one likes, by rules that keep the number of
partitions, and for a gathering in several tasks the number of tasks, delivers the plan below once. Missing, and false: other numbers of
partitions (`C88_more_partitions_false`, `C88_broadcast_repeats_false`, `C88_broadcast_loses_false`) and, for a gathering in several
tasks, other numbers of tasks (`C88_other_tasks_false`). -/
theorem C88_rebuilt_partial {s : Kind} {parts producers T : Nat} (hT : 0 < T) (hP : 0 < parts) (hN : 0 < producers) {x y : Exchange}
    (hx : tryNew s parts producers T = .ok x) {ops : List Op} (hk : ∀ o ∈ ops, o.Keeps T parts s producers)
    (hy : x.applyAll ops = .ok y) :
    y.sort = s ∧ y.parts = parts ∧ Delivers y T := by
  have key : ∀ (ops : List Op) (x y : Exchange), (∀ o ∈ ops, o.Keeps T parts s producers) → x.applyAll ops = .ok y →
      x.sort = s → x.parts = parts → 0 < x.tasks → (s = .coalesce → 1 < T → x.tasks = producers) → Fits x T →
      y.sort = s ∧ y.parts = parts ∧ Fits y T := by
    intro ops
    induction ops with
    | nil => intro x y _ h h1 h2 h3 h4 h5; cases h; exact ⟨h1, h2, h5⟩
    | cons o os ih =>
      intro x y hk h h1 h2 h3 h4 h5
      have hko := hk o (by simp)
      have hkos : ∀ o ∈ os, o.Keeps T parts s producers := fun o ho => hk o (List.mem_cons_of_mem _ ho)
      unfold Exchange.applyAll at h
      cases o with
      | fetch n => exact ih x y hkos h h1 h2 h3 h4 h5
      | children cs =>
        simp only [Exchange.apply, Exchange.withNewChildren] at h
        by_cases hr : x.remote = true
        · rw [if_pos hr] at h
          by_cases hc : cs = []
          · rw [if_pos hc] at h; exact ih x y hkos h h1 h2 h3 h4 h5
          · rw [if_neg hc] at h; cases h
        · rw [if_neg hr] at h
          match cs, hko, h with
          | [], _, h => cases h
          | [c], hko, h =>
            have hc : c = parts := hko c (by simp)
            have hsame : ({ x with parts := c } : Exchange) = x := by rw [hc, ← h2]
            simp only [hsame] at h
            exact ih x y hkos h h1 h2 h3 h4 h5
          | _ :: _ :: _, _, h => cases h
      | stage p n r =>
        obtain ⟨rfl, hn, hnt⟩ := hko
        simp only [Exchange.apply] at h
        refine ih _ y hkos h ?_ ?_ ?_ ?_ ?_
        · unfold Exchange.withInputStage; split <;> exact h1
        · unfold Exchange.withInputStage; split <;> rfl
        · unfold Exchange.withInputStage; split <;> exact hn
        · intro hs ht; unfold Exchange.withInputStage; split <;> exact hnt hs ht
        · unfold Fits at h5 ⊢
          unfold Exchange.withInputStage
          cases hs : x.sort with
          | coalesce =>
            rw [hs] at h5
            simp only at h5 ⊢
            have hsc : s = .coalesce := h1 ▸ hs
            simp only [CoalesceExec.withInputStage]
            rw [h5, h2, Nat.max_eq_left h3]
            rcases Nat.lt_or_ge 1 T with ht | ht
            · have e1 := h4 hsc ht
              have e2 := hnt hsc ht
              rw [e1, e2, Nat.mul_div_cancel _ hN]
            · obtain rfl : T = 1 := by omega
              rw [divCeil_one, divCeil_one, Nat.max_eq_left h3, Nat.max_eq_left hn, Nat.mul_right_comm, Nat.mul_div_cancel _ h3]
          | shuffle => simp only
          | broadcast => rw [hs] at h5; simp only at h5 ⊢; rw [h5, h2]
  have hbase : x.sort = s ∧ x.parts = parts ∧ x.tasks = producers ∧ Fits x T := by
    cases s with
    | coalesce =>
      simp only [tryNew, CoalesceExec.tryNew, if_neg (Nat.ne_of_gt hT)] at hx
      cases hx
      exact ⟨rfl, rfl, rfl, rfl⟩
    | shuffle => cases hx; exact ⟨rfl, rfl, rfl, True.intro⟩
    | broadcast => cases hx; exact ⟨rfl, rfl, rfl, rfl⟩
  obtain ⟨h1, h2, h3, h4⟩ := hbase
  obtain ⟨k1, k2, k3⟩ := key ops x y hk hy h1 h2 (h3 ▸ hN) (fun _ _ => h3) h4
  exact ⟨k1, k2, delivers_of_fits hT (fun _ => k2 ▸ hP) k3⟩

/-- **C88** A shuffle delivers everything once whatever plans, of whatever numbers of partitions and tasks, it is rebuilt with. -/
theorem C88_shuffle_any_plan {parts producers T : Nat} (hT : 0 < T) {x y : Exchange}
    (hx : tryNew .shuffle parts producers T = .ok x) {ops : List Op} (hy : x.applyAll ops = .ok y) :
    y.sort = .shuffle ∧ y.declared = parts ∧ Delivers y T := by
  have key : ∀ (ops : List Op) (x y : Exchange), x.applyAll ops = .ok y → x.sort = .shuffle →
      y.sort = .shuffle ∧ y.declared = x.declared := by
    intro ops
    induction ops with
    | nil => intro x y h hs; cases h; exact ⟨hs, rfl⟩
    | cons o os ih =>
      intro x y h hs
      unfold Exchange.applyAll at h
      cases o with
      | fetch n => exact ih x y h hs
      | children cs =>
        simp only [Exchange.apply, Exchange.withNewChildren] at h
        by_cases hr : x.remote = true
        · rw [if_pos hr] at h
          by_cases hc : cs = []
          · rw [if_pos hc] at h; exact ih x y h hs
          · rw [if_neg hc] at h; cases h
        · rw [if_neg hr] at h
          match cs, h with
          | [], h => cases h
          | [c], h => exact ih { x with parts := c } y h hs
          | _ :: _ :: _, h => cases h
      | stage p n r =>
        simp only [Exchange.apply, Exchange.withInputStage, hs] at h
        exact ih { x with sort := .shuffle, parts := p, tasks := n, remote := r } y h rfl
  cases hx
  obtain ⟨h1, h2⟩ := key ops _ y hy rfl
  exact ⟨h1, h2, delivers_of_fits hT (fun h => by rw [h1] at h; cases h) (by unfold Fits; rw [h1]; exact True.intro)⟩

/-- **C88** Another number of children than one is refused, and every child once the stage has been sent; one child is taken. -/
theorem C88_children (x : Exchange) (cs : List Nat) :
    (x.remote = true → cs ≠ [] → ∃ m, x.withNewChildren cs = .error (.notImpl m)) ∧
    (x.remote = true → cs = [] → x.withNewChildren cs = .ok x) ∧
    (x.remote = false → cs.length ≠ 1 → ∃ m, x.withNewChildren cs = .error (.plan m)) ∧
    (x.remote = false → cs.length = 1 → ∃ y, x.withNewChildren cs = .ok y ∧ cs = [y.parts] ∧ y.sort = x.sort ∧ y.tasks = x.tasks
      ∧ y.remote = false) := by
  unfold Exchange.withNewChildren
  refine ⟨fun hr hc => ⟨_, by rw [if_pos hr, if_neg hc]⟩, fun hr hc => by rw [if_pos hr, if_pos hc], ?_, ?_⟩
  · intro hr hc
    rw [if_neg (by simp [hr])]
    match cs, hc with
    | [], _ => exact ⟨_, rfl⟩
    | [c], hc => exact absurd rfl hc
    | _ :: _ :: _, _ => exact ⟨_, rfl⟩
  · intro hr hc
    rw [if_neg (by simp [hr])]
    match cs, hc with
    | [c], _ => exact ⟨_, rfl, rfl, rfl, rfl, hr⟩

/-! ### Rebuilt with another number of partitions -/

/-- **C88 is false for a gathering that gets a child with more partitions**: for every number of partitions, tasks and consumers, the
partitions that were not there when the exchange was built are read by nobody. The new child is taken without an error. -/
theorem C88_more_partitions_false {parts more producers T : Nat} (hT : 0 < T) {x y : Exchange}
    (hx : tryNew .coalesce parts producers T = .ok x) (hy : x.withNewChildren [more] = .ok y) :
    y.parts = more ∧ ∀ i < T, ∀ q < y.declared, ∀ rs, y.reads ⟨i, T⟩ q = .ok rs → ∀ r ∈ rs, r.2 < parts := by
  obtain ⟨e, he, hok, _⟩ := C01_coalesce_exactly_once parts producers T hT
  simp only [tryNew, he] at hx
  cases hx
  cases hy
  refine ⟨rfl, ?_⟩
  intro i hi q hq rs hrs r hr
  obtain ⟨pulls, hp, _, hb⟩ := hok i hi q hq
  have hin : e.inputTasks = producers := by
    simp only [CoalesceExec.tryNew, if_neg (Nat.ne_of_gt hT), Except.ok.injEq] at he; rw [← he]
  have hrs' : (e.execute ⟨i, T⟩ q).map (fun ps => ps.map fun r => (r.task, r.partition)) = .ok rs := by
    rw [← hrs]; simp only [Exchange.reads, ← hin]
  rw [hp] at hrs'
  cases hrs'
  obtain ⟨p, hp', rfl⟩ := List.mem_map.mp hr
  exact (hb p hp').2.1

/-- **C88 is false for a broadcast that gets a child with one partition in place of several**: every consumer task gets every row as
often as there were partitions before. -/
theorem C88_broadcast_repeats_false {parts producers T : Nat} (hP : 0 < parts) {x y : Exchange}
    (hx : tryNew .broadcast parts producers T = .ok x) (hy : x.withNewChildren [1] = .ok y) (i : Nat) :
    (taskReads y T i).Perm ((List.range producers).flatMap fun j => List.replicate parts (j, 0)) := by
  cases hx
  cases hy
  unfold taskReads
  simp only [Exchange.reads, if_neg (by decide : ¬ (1 : Nat) = 0)]
  refine (fan_reads parts producers i T (· % 1)).trans (List.Perm.of_eq ?_)
  refine congrArg (fun g => (List.range producers).flatMap g) ?_
  funext j
  simp only [Nat.mod_one, List.map_const', List.length_range]

/-- **C88 is false for a broadcast that gets a child with two partitions in place of one**: of two consumer tasks, one gets the first
partition and the other one the second. -/
theorem C88_broadcast_loses_false : ∃ x y, tryNew .broadcast 1 1 2 = .ok x ∧ x.withNewChildren [2] = .ok y ∧
    taskReads y 2 0 = [(0, 0)] ∧ taskReads y 2 1 = [(0, 1)] := ⟨_, _, rfl, rfl, by decide, by decide⟩

/-- **C88 is false for a gathering in two tasks that gets a stage of three tasks in place of two**: half of the partitions are read by
nobody. -/
theorem C88_other_tasks_false : ∃ x, tryNew .coalesce 2 2 2 = .ok x ∧
    (List.range 2).flatMap (taskReads (x.withInputStage 2 3 true) 2) = [(0, 0), (1, 0), (2, 0)] := ⟨_, rfl, by decide⟩

/-! Cases. -/

/-- Three tasks of two partitions, gathered in two, rebuilt with a limit, an equal child and the stage that was sent. -/
example : ∃ x y, tryNew .coalesce 2 3 2 = .ok x ∧
    x.applyAll [.fetch 5, .children [2], .stage 2 3 true, .children []] = .ok y ∧
    (∀ o ∈ [Op.fetch 5, .children [2], .stage 2 3 true, .children []], o.Keeps 2 2 .coalesce 3) ∧
    (List.range 2).flatMap (taskReads y 2) = [(0, 0), (0, 1), (1, 0), (1, 1), (2, 0), (2, 1)] := by
  refine ⟨_, _, rfl, rfl, ?_, by decide⟩
  intro o ho
  simp only [List.mem_cons, List.not_mem_nil, or_false] at ho
  rcases ho with rfl | rfl | rfl | rfl <;> simp [Op.Keeps]

example : ∃ x y, tryNew .broadcast 2 1 1 = .ok x ∧ x.withNewChildren [1] = .ok y ∧ taskReads y 1 0 = [(0, 0), (0, 0)] :=
  ⟨_, _, rfl, rfl, by decide⟩

example : ∃ x y, tryNew .coalesce 1 1 1 = .ok x ∧ x.withNewChildren [2] = .ok y ∧ taskReads y 1 0 = [(0, 0)] :=
  ⟨_, _, rfl, rfl, by decide⟩

end DD.Rebuild
