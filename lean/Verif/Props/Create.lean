/-
**C23**: planning twice, and planning what cannot be distributed. **C56**: what the workers get.
-/
import Verif.Lemmas.Create
import Verif.Props.MetricsRewrite

namespace DD.Tree.Create

open DD.Tree DD.Tree.Rec

variable {Row U : Type} {env : Env Row} {route : Plan Row → Nat → Except Err (List U)} {fuel : Nat}

/-! ### **C56** -/

theorem key_range {route : Plan Row → Nat → Except Err (List U)} {b : Plan Row} {s : List (Sent Row U)} {r : Remote U}
    (h : SentFor route fuel b s r) (query : Nat) :
    s.map (Sent.key query) = (List.range b.kind.tasks).map fun i => (⟨query, b.kind.num, i⟩ : Metrics.Key) := by
  obtain ⟨c, rest, _, _, _, h4, h5⟩ := h.local_
  apply List.ext_getElem?
  intro i
  rw [List.getElem?_map, List.getElem?_map]
  by_cases hi : i < b.kind.tasks
  · obtain ⟨x, hx⟩ : ∃ x, s[i]? = some x := ⟨s[i], by simp [h4, hi]⟩
    obtain ⟨a1, a2, _⟩ := h5 i x hx
    simp [hx, Sent.key, a1, a2, List.getElem?_range hi]
  · rw [List.getElem?_eq_none (by omega), List.getElem?_eq_none (by simpa using hi)]; rfl

/-- **C56** (once) Whatever plan is started and however tasks are routed: if the start succeeds, the tasks that plans were
sent for are, each exactly once, the tasks of the stages of the plan; these are also the tasks whose metrics are waited
for (**C37**). -/
theorem C56_each_task_sent_once {p h : Plan Row} {sent rem} (hs : start route fuel p = .ok (h, sent, rem)) (query : Nat) :
    (sent.map (Sent.key query)).Perm (Metrics.expectedKeys query p) := by
  obtain ⟨-, L, a1, -, rfl, -, a5⟩ := start_spec hs
  unfold Metrics.expectedKeys
  refine List.Perm.trans ?_ (List.Perm.flatMap_right _ a1)
  rw [List.flatMap_map, List.map_flatMap]
  refine .of_eq ?_
  clear a1 hs
  induction L with
  | nil => rfl
  | cons l L ih =>
    rw [List.flatMap_cons, List.flatMap_cons, key_range (a5 l (by simp)) query, ih fun l hl => a5 l (by simp [hl])]

/-- **C56** (never twice) In a planned plan no task is sent two plans. -/
theorem C56_no_task_twice (he : EnvOk env) (hsc : ScalesLeaves env) {p p' : Plan Row} (hu : Undistributed p)
    (hp : plan env p = .ok (some p')) {h sent rem} (hs : start route fuel p' = .ok (h, sent, rem)) (query : Nat) :
    (sent.map (Sent.key query)).Nodup := by
  rw [(C56_each_task_sent_once hs query).nodup_iff]
  have hn := (C21_stage_numbers he hsc hu hp).2.1
  rw [← (Metrics.boundaries_nums p').nodup_iff] at hn
  unfold Metrics.expectedKeys
  generalize Metrics.boundaries p' = bs at hn
  induction bs with
  | nil => simp
  | cons b bs ih =>
    rw [List.map_cons, List.nodup_cons] at hn
    rw [List.flatMap_cons, List.nodup_append]
    refine ⟨?_, ih hn.2, ?_⟩
    · rw [List.Nodup, List.pairwise_map]
      exact List.nodup_range.imp fun hij e => hij (by cases e; rfl)
    · rintro k1 hk1 k2 hk2 rfl
      obtain ⟨i, _, rfl⟩ := List.mem_map.mp hk1
      obtain ⟨b', hb', hk2⟩ := List.mem_flatMap.mp hk2
      obtain ⟨j, _, e⟩ := List.mem_map.mp hk2
      simp only [Metrics.Key.mk.injEq] at e
      exact hn.1 (List.mem_map.mpr ⟨b', hb', e.2.1⟩)

/-- **C56** (right worker) Every task was sent to the worker its consumers will ask for its output: for every stage of the
plan the consumers know one list of workers, with one worker per task, and task `i`'s plan was sent to worker `i`. -/
theorem C56_consumers_ask_where_plans_went {p h : Plan Row} {sent rem} (hs : start route fuel p = .ok (h, sent, rem))
    (hnd : (stageNums p).Nodup) {T t : Nat} {b : Plan Row} (hb : At T p t b) (hn : b.kind.isNet = true) :
    (∃ r ∈ rem, r.num = b.kind.num ∧ r.workers.length = b.kind.tasks) ∧
      ∀ r ∈ rem, r.num = b.kind.num → ∀ s ∈ sent, s.stage = b.kind.num → r.workers[s.task]? = some s.url := by
  obtain ⟨_, L, a1, a2, rfl, rfl, a5⟩ := start_spec hs
  have hm : b ∈ L.map (·.1) := a1.mem_iff.mpr ((Metrics.mem_boundaries b p T).mpr ⟨t, hb, hn⟩)
  obtain ⟨l, hl, rfl⟩ := List.mem_map.mp hm
  rw [← a2] at hnd
  -- stages with the same number are the same
  have huniq : ∀ l1 ∈ L, ∀ l2 ∈ L, l1.1.kind.num = l2.1.kind.num → l1 = l2 := by
    intro l1 h1 l2 h2 e
    exact List.inj_on_of_nodup_map hnd h1 h2 e
  refine ⟨⟨l.2.2, List.mem_map.mpr ⟨l, hl, rfl⟩, (a5 l hl).num, ?_⟩, ?_⟩
  · obtain ⟨c, rest, _, _, h3, _⟩ := (a5 l hl).local_
    exact h3
  · intro r hr hrn s hsn hss
    obtain ⟨l1, h1, rfl⟩ := List.mem_map.mp hr
    obtain ⟨l2, h2, hs2⟩ := List.mem_flatMap.mp hsn
    have e1 : l1 = l := huniq _ h1 _ hl (by rw [← (a5 l1 h1).num]; exact hrn)
    obtain ⟨c, rest, _, _, h3, h4, h5⟩ := (a5 l2 h2).local_
    obtain ⟨i, hi⟩ := List.mem_iff_getElem?.mp hs2
    obtain ⟨b1, b2, b3, b4, _⟩ := h5 i s hi
    have e2 : l2 = l := huniq _ h2 _ hl (by rw [← b1]; exact hss)
    subst e1 e2
    rw [b2]
    exact b4

/-- **C56** (right plan) What is sent for a task is specialised for that task and for the number of tasks of its stage, from
the part of the plan that belongs to the stage; what the coordinator keeps is the part that belongs to the head. -/
theorem C56_sent_plans {p h : Plan Row} {sent rem} (hs : start route fuel p = .ok (h, sent, rem)) (T : Nat) :
    h = cut p ∧ ∀ s ∈ sent, ∃ t b c rest, At T p t b ∧ b.kind.isNet = true ∧ b.children = c :: rest
      ∧ s.stage = b.kind.num ∧ s.count = b.kind.tasks ∧ s.task < s.count
      ∧ taskSpecialized fuel (cut c) ⟨s.task, s.count⟩ = .ok s.plan := by
  obtain ⟨a0, L, a1, a2, rfl, rfl, a5⟩ := start_spec hs
  refine ⟨a0, fun s hsn => ?_⟩
  obtain ⟨l, hl, hs2⟩ := List.mem_flatMap.mp hsn
  obtain ⟨t, ht, hn⟩ := (Metrics.mem_boundaries l.1 p T).mp (a1.mem_iff.mp (List.mem_map.mpr ⟨l, hl, rfl⟩))
  obtain ⟨c, rest, h1, _, h3, h4, h5⟩ := (a5 l hl).local_
  obtain ⟨i, hi⟩ := List.mem_iff_getElem?.mp hs2
  obtain ⟨b1, b2, b3, b4, b5⟩ := h5 i s hi
  refine ⟨t, l.1, c, rest, ht, hn, h1, b1, b3, ?_, by rw [b2, b3]; exact b5⟩
  rw [b2, b3]
  have := (List.getElem?_eq_some_iff.mp hi).1
  omega

/-- **C56** (nothing else) Nothing below a boundary is left in a cut plan, and the rest is as it was: its nodes are those of
the stage, each with its number of tasks. -/
theorem C56_cut : ∀ {T t : Nat} {p x' : Plan Row}, At T (cut p) t x' → (x'.kind.isNet = true → x'.children = []) ∧ ∃ x, At T p t x ∧ x' = cut x
  | T, t, .node k tc cs, x', h => by
    generalize hq : cut (.node k tc cs) = q at h
    have hq' := hq
    rw [cut, cutAll_eq] at hq'
    cases h with
    | root =>
      refine ⟨fun hn => ?_, _, .root, hq.symm⟩
      rw [← hq] at hn ⊢
      rw [cut_kind] at hn
      rw [cut_children]
      exact if_pos hn
    | child hi hat =>
      cases hq'
      cases hk : k.isNet with
      | true => simp [hk] at hi
      | false =>
        simp only [hk, Bool.false_eq_true, if_false, List.getElem?_map, Option.map_eq_some_iff] at hi
        obtain ⟨c0, hi, rfl⟩ := hi
        have := List.mem_of_getElem? hi
        obtain ⟨h0, x, h1, h2⟩ := C56_cut hat
        exact ⟨h0, x, .child hi h1, h2⟩
termination_by _ _ p => sizeOf p
decreasing_by all_goals (have := List.sizeOf_lt_of_mem ‹_ ∈ cs›; simp_wf; omega)

/-- **C56** (inputs first) In a planned plan, the stages are sent in the order of their numbers, and so after the stages they
read from. -/
theorem C56_inputs_first (he : EnvOk env) (hsc : ScalesLeaves env) {p p' : Plan Row} (hu : Undistributed p)
    (hp : plan env p = .ok (some p')) {h sent rem} (hs : start route fuel p' = .ok (h, sent, rem)) :
    sent.Pairwise fun a b => a.stage ≤ b.stage := by
  obtain ⟨-, L, -, a2, rfl, -, a5⟩ := start_spec hs
  have hr := (C21_stage_numbers he hsc hu hp).1
  have hsorted : (L.map fun l => l.1.kind.num).Pairwise (· < ·) := by
    rw [a2, hr]; exact List.pairwise_lt_range'
  rw [List.pairwise_map] at hsorted
  have hst : ∀ l ∈ L, ∀ s ∈ l.2.1, s.stage = l.1.kind.num := by
    intro l hl s hs2
    obtain ⟨c, rest, _, _, _, _, h5⟩ := (a5 l hl).local_
    obtain ⟨i, hi⟩ := List.mem_iff_getElem?.mp hs2
    exact (h5 i s hi).1
  clear a2 hs a5 hr
  induction L with
  | nil => simp
  | cons l L ih =>
    rw [List.pairwise_cons] at hsorted
    rw [List.flatMap_cons, List.pairwise_append]
    refine ⟨?_, ih hsorted.2 fun l hl => hst l (by simp [hl]), ?_⟩
    · refine List.pairwise_iff_getElem.mpr fun i j hi hj _ => ?_
      rw [hst l (by simp) _ (List.getElem_mem hi), hst l (by simp) _ (List.getElem_mem hj)]
    · intro a ha b hb
      obtain ⟨l', hl', hb⟩ := List.mem_flatMap.mp hb
      rw [hst l (by simp) a ha, hst l' (by simp [hl']) b hb]
      exact Nat.le_of_lt (hsorted.1 l' hl')

/-- **C56** (succeeds) Every planned plan can be started, if the routing handlers answer with one worker per task; and the
plan sent for task `i` of a stage of `N` tasks is the task's share (**C27**) of the part of the plan that belongs to the
stage. -/
theorem C56_planned_plans_start (he : EnvOk env) {p p' : Plan Row} {J : SInfo Row} (h : Src env .pre p J)
    (hrep : J.rep = false) (hroot : RootOk env p J) (hp : plan env p = .ok (some p'))
    (hr : ∀ c n, ∃ us, route c n = .ok us ∧ us.length = n) (hf : depth p' ≤ fuel) :
    ∃ hd sent rem, start route fuel p' = .ok (hd, sent, rem) ∧
      ∀ s ∈ sent, ∃ t b c, At 1 p' t b ∧ b.kind.isNet = true ∧ b.children = [c] ∧ s.stage = b.kind.num
        ∧ s.plan = share ⟨s.task, b.kind.tasks⟩ (cut c) := by
  obtain ⟨d, hl, _⟩ := plan_src he h hrep hroot hp
  have hdepth : ∀ T t (p x : Plan Row), At T p t x → depth x ≤ depth p := by
    intro T t p x hx
    induction hx with
    | root => exact Nat.le_refl _
    | child hc _ ih =>
      rw [depth]
      have := depth_le (List.mem_of_getElem? hc)
      omega
  have key : ∀ t b, At 1 p' t b → b.kind.isNet = true → ∃ c, b.children = [c] ∧ ∀ i < b.kind.tasks,
      taskSpecialized fuel (cut c) ⟨i, b.kind.tasks⟩ = .ok (share ⟨i, b.kind.tasks⟩ (cut c)) := by
    intro t b hb hn
    obtain ⟨c, I', h1, h2, h3, _⟩ := legal_sub hl hb hn
    refine ⟨c, h1, fun i hi => taskSpecialized_share (ok_cut (ok_of_strip h2 (legal_ok h3 _ hi))) ?_⟩
    have e1 := depth_cut c
    have e2 := hdepth _ _ _ _ hb
    have e3 : depth c ≤ depth b := by
      cases b with
      | node k tc cs =>
        rw [depth]
        have := depth_le (cs := cs) (c := c) (by simp only [Plan.children] at h1; simp [h1])
        omega
    omega
  obtain ⟨⟨hd, sent, rem⟩, hs⟩ := start_ok (fuel := fuel) hr (p := p') fun b hb => by
    obtain ⟨t, hat, hn⟩ := (Metrics.mem_boundaries b p' 1).mp hb
    obtain ⟨c, h1, h2⟩ := key t b hat hn
    exact ⟨c, [], h1, fun i hi => ⟨_, h2 i hi⟩⟩
  refine ⟨hd, sent, rem, hs, fun s hsn => ?_⟩
  obtain ⟨t, b, c, rest, hb, hn, h1, h2, h3, h4, h5⟩ := (C56_sent_plans hs 1).2 s hsn
  obtain ⟨c', e1, e2⟩ := key t b hb hn
  rw [e1] at h1
  cases h1
  refine ⟨t, b, c, hb, hn, e1, h2, ?_⟩
  rw [h3] at h4 h5
  rw [e2 _ h4] at h5
  exact (Except.ok.inj h5).symm

/-- **C56** (once only) What was started cannot be started again. -/
theorem C56_no_second_start {p h : Plan Row} {sent rem} (hn : hasNet p = true)
    (hs : start route fuel p = .ok (h, sent, rem)) {V : Type} (route' : Plan Row → Nat → Except Err (List V)) (fuel' : Nat) :
    ∀ r, start route' fuel' h ≠ .ok r := by
  rw [(start_spec hs).1]
  exact start_cut_fails hn

/-! ### **C24** (none left) -/

/-- **C24** No boundary with one producer task and one consumer task is left in a planned plan. -/
theorem C24_no_trivial_boundary (he : EnvOk env) (hs : ScalesLeaves env) {p p' : Plan Row} (hu : Undistributed p)
    (hp : plan env p = .ok (some p')) {t : Nat} {x : Plan Row} (hx : At 1 p' t x) (hn : x.kind.isNet = true) :
    ¬ (t = 1 ∧ x.kind.tasks = 1) := by
  obtain ⟨p1, p2, p3, id, h1, h2, h3, _, rfl⟩ := plan_steps hp
  have h0 := (inject_shape (D := False) he hs False.elim (preparePlan_plain hu h1) False.elim h2).2 rfl
  have a : Every (fun t x => x.kind.isNet = true → ¬ (t = 1 ∧ x.kind.tasks = 1)) 1 p3 := by
    refine prepare_every (P := PreOk env False) ?_ ?_ ?_ h3 h0
    · intro t k tc cs cs' hk hl h e
      simp only [Plan.kind] at e
      rcases hk with hk | rfl
      · rw [e] at hk; cases hk
      · obtain ⟨c, hc⟩ := (h.net e).1
        simp only [Plan.children] at hc
        subst hc
        cases hl
    · intro t k tc c hk e
      simp only [Plan.kind] at e
      rw [isHead_isNet hk] at e; cases e
    · intro t k tc c rest id c' c'' hk hne _ _ _ _ _
      simpa [Plan.kind, withStage_tasks] using hne
  split at hx
  · refine partialReduce_every (Q := fun t x => x.kind.isNet = true → ¬ (t = 1 ∧ x.kind.tasks = 1)) ?_ ?_ a t x hx hn
    · intro t k tc cs h
      obtain ⟨cs', e, _⟩ := reduceNode_shape k tc (cs.map partialReduce)
      rw [e]
      exact h
    · intro t r x e; cases e
  · exact a t x hx hn

/-! ### **C23** -/

mutual
theorem hasNet_boundaries : ∀ p : Plan Row, hasNet p = !(Metrics.boundaries p).isEmpty
  | .node k tc cs => by
    rw [hasNet, Metrics.boundaries, hasNetAny_boundaries cs]
    cases k.isNet <;> simp
theorem hasNetAny_boundaries : ∀ cs : List (Plan Row), hasNetAny cs = !(Metrics.boundariesAll cs).isEmpty
  | [] => by rw [hasNetAny, Metrics.boundariesAll]; rfl
  | c :: cs => by
    rw [hasNetAny, Metrics.boundariesAll, hasNet_boundaries c, hasNetAny_boundaries cs]
    cases Metrics.boundaries c <;> simp
end

theorem hasNet_iff {p : Plan Row} (T : Nat) : hasNet p = true ↔ ∃ t x, At T p t x ∧ x.kind.isNet = true := by
  rw [hasNet_boundaries]
  constructor
  · intro h
    cases hb : Metrics.boundaries p with
    | nil => rw [hb] at h; cases h
    | cons b bs =>
      obtain ⟨t, h⟩ := (Metrics.mem_boundaries b p T).mp (by rw [hb]; simp)
      exact ⟨t, b, h⟩
  · rintro ⟨t, x, h⟩
    have := (Metrics.mem_boundaries x p T).mpr ⟨t, h⟩
    cases hb : Metrics.boundaries p with
    | nil => rw [hb] at this; cases this
    | cons => rfl

theorem hasNet_partialReduce (p : Plan Row) : hasNet (partialReduce p) = hasNet p := by
  rw [Bool.eq_iff_iff]
  constructor
  · intro h
    cases hc : hasNet p with
    | true => rfl
    | false =>
      have hno : Every (fun _ x => x.kind.isNet = false) 1 p := by
        intro t x hx
        cases hk : x.kind.isNet with
        | false => rfl
        | true => rw [(hasNet_iff 1).mpr ⟨t, x, hx, hk⟩] at hc; cases hc
      obtain ⟨t, x, hx, hk⟩ := (hasNet_iff 1).mp h
      have := partialReduce_every (Q := fun _ x => x.kind.isNet = false) (fun t k tc cs h => by
        obtain ⟨cs', e, _⟩ := reduceNode_shape k tc (cs.map partialReduce)
        rw [e]; exact h) (fun _ _ _ => rfl) hno t x hx
      rw [this] at hk; cases hk
  · intro h
    cases hc : hasNet (partialReduce p) with
    | true => rfl
    | false =>
      exfalso
      revert h hc
      have key : ∀ p : Plan Row, hasNet p = true → hasNet (partialReduce p) = true := by
        intro p
        refine Plan.rec (motive_1 := fun p => hasNet p = true → hasNet (partialReduce p) = true)
          (motive_2 := fun cs => hasNetAny cs = true → hasNetAny (partialReduceAll cs) = true) ?_ ?_ ?_ p
        · intro k tc cs ih h
          rw [partialReduce]
          rw [hasNet] at h
          cases hk : k.isNet with
          | true =>
            obtain ⟨cs', e, _⟩ := reduceNode_shape k tc (partialReduceAll cs)
            rw [e, hasNet, hk]; rfl
          | false =>
            rw [hk, Bool.false_or] at h
            have : reduceNode k tc (partialReduceAll cs) = .node k tc (partialReduceAll cs) := by
              unfold reduceNode; rw [hk]
            rw [this, hasNet, hk, Bool.false_or]
            exact ih h
        · intro h; rw [hasNetAny] at h; cases h
        · intro c cs ih1 ih2 h
          rw [hasNetAny, Bool.or_eq_true] at h
          rw [partialReduceAll, hasNetAny, Bool.or_eq_true]
          exact h.imp ih1 ih2
      intro h hc
      rw [key p h] at hc; cases hc

/-- What distributed planning does to a query without user-placed boundaries. -/
theorem create_plan {dyn : Bool} {p : Plan Row} {q : Phys Row} (hn : hasNet p = false)
    (h : create env dyn fuel (.plan p) = .ok q) :
    (dyn = true ∧ ∃ p', preparePlan env p = .ok p' ∧ q = .distributed (.plan p'))
    ∨ (dyn = false ∧ plan env p = .ok none ∧ q = .plan p)
    ∨ (dyn = false ∧ ∃ p', plan env p = .ok (some p') ∧ q = .distributed (.plan p')) := by
  rw [create] at h
  simp only [Phys.hasNet, hn, Bool.false_eq_true, if_false] at h
  cases dyn with
  | true =>
    simp only [if_true] at h
    obtain ⟨p', h1, h⟩ := mbind_ok h
    cases h
    exact .inl ⟨rfl, p', lift_ok h1, rfl⟩
  | false =>
    simp only [Bool.false_eq_true, if_false] at h
    obtain ⟨o, h1, h⟩ := mbind_ok h
    cases o with
    | none => cases h; exact .inr (.inl ⟨rfl, lift_ok h1, rfl⟩)
    | some p' => cases h; exact .inr (.inr ⟨rfl, p', lift_ok h1, rfl⟩)

/-- **C23** (fallback) With static task counts, planning a query either returns it as it was, or returns a distributed plan
with at least one boundary: never a plan that was changed but is not distributed, and no `DistributedExec` without
stages. -/
theorem C23_distributed_or_original {p : Plan Row} {q : Phys Row} (hn : hasNet p = false)
    (h : create env false fuel (.plan p) = .ok q) :
    q = .plan p ∨ ∃ p', q = .distributed (.plan p') ∧ hasNet p' = true := by
  rcases create_plan hn h with ⟨h, _⟩ | ⟨_, _, h⟩ | ⟨_, p', h1, h2⟩
  · cases h
  · exact .inl h
  · refine .inr ⟨p', h2, ?_⟩
    obtain ⟨_, _, p3, _, _, _, _, h4, rfl⟩ := plan_steps h1
    split
    · rw [hasNet_partialReduce]; exact h4
    · exact h4

/-- **C23** (again) Planning what planning returned, with the same session, returns it unchanged. -/
theorem C23_planning_again {dyn : Bool} {p : Plan Row} {q : Phys Row} (hn : hasNet p = false)
    (h : create env dyn fuel (.plan p) = .ok q) : create env dyn fuel q = .ok q := by
  rcases create_plan hn h with ⟨_, p', _, rfl⟩ | ⟨_, _, rfl⟩ | ⟨_, p', _, rfl⟩
  · rw [create]
  · exact h
  · rw [create]

/-- **C23** (other session) A distributed plan is returned unchanged by planning in whatever session. -/
theorem C23_distributed_unchanged {dyn dyn' : Bool} {env' : Env Row} {fuel' : Nat} {p : Plan Row} {q : Phys Row}
    (h : create env dyn fuel (.plan p) = .ok q) (hq : ∃ q', q = .distributed q') : create env' dyn' fuel' q = .ok q := by
  obtain ⟨q', rfl⟩ := hq
  rw [create]

/-- **C23** (one worker) If every stage may have only one task, because there is one worker or `max_tasks_per_stage` is one,
no query is distributed: all are returned as they were. -/
theorem C23_one_worker (he : EnvOk env) (hs : ScalesLeaves env) (h1 : env.maxTasks = 1) {p : Plan Row}
    (hu : Undistributed p) {q : Phys Row} (h : create env false fuel (.plan p) = .ok q) : q = .plan p := by
  have hn : hasNet p = false := by
    cases hc : hasNet p with
    | false => rfl
    | true =>
      obtain ⟨t, x, hx, hk⟩ := (hasNet_iff 1).mp hc
      rw [(hu t x hx).1] at hk; cases hk
  rcases create_plan hn h with ⟨h, _⟩ | ⟨_, _, h⟩ | ⟨_, p', h2, h3⟩
  · cases h
  · exact h
  · exfalso
    have hnet : hasNet p' = true := by
      rcases C23_distributed_or_original hn h with e | ⟨p'', e, e'⟩
      · rw [h3] at e; cases e
      · rw [h3] at e; cases e; exact e'
    obtain ⟨t, x, hx, hk⟩ := (hasNet_iff 1).mp hnet
    have a := C20_node_task_counts he hs hu h2 hx
    have b := C20_stage_task_counts he hs hu h2 hx hk
    exact C24_no_trivial_boundary he hs hu h2 hx hk ⟨by omega, by omega⟩

/-- **C23** (`EXPLAIN ANALYZE`) The query below an `AnalyzeExec` is planned as if it stood alone; the `AnalyzeExec` is
replaced exactly if its query became distributed. -/
theorem C23_analyze {dyn : Bool} {p q : Phys Row} (h : create env dyn fuel (.analyze p) = .ok q) :
    ∃ r, create env dyn fuel p = .ok r ∧ ((∃ r', r = .distributed r' ∧ q = .distAnalyze r)
      ∨ ((∀ r', r ≠ .distributed r') ∧ q = .analyze r)) := by
  rw [create] at h
  obtain ⟨r, h1, h⟩ := mbind_ok h
  refine ⟨r, h1, ?_⟩
  cases r with
  | distributed r' => cases h; exact .inl ⟨r', rfl, rfl⟩
  | plan r' => cases h; exact .inr ⟨(by rintro _ ⟨⟩), rfl⟩
  | analyze r' => cases h; exact .inr ⟨(by rintro _ ⟨⟩), rfl⟩
  | distAnalyze r' => cases h; exact .inr ⟨(by rintro _ ⟨⟩), rfl⟩

theorem startTimes_twice {n : Nat} {p : Plan Row} (hn : hasNet p = true) : ∀ r, startTimes route fuel (n + 2) p ≠ .ok r := by
  intro r h
  rw [startTimes] at h
  obtain ⟨⟨h1, s, rm⟩, e1, h⟩ := mbind_ok h
  simp only at h
  rw [startTimes] at h
  obtain ⟨x, e2, h⟩ := mbind_ok h
  rw [(start_spec e1).1] at e2
  exact start_cut_fails hn _ e2

/-- **C23 is false** for `EXPLAIN ANALYZE`: planning an analyzed distributed query again (which happens if the planner is
registered twice) treats its boundaries as placed by the user; unless this takes all boundaries away, the query is
wrapped in a second `DistributedExec`, and executing it fails however tasks are routed, because the outer
`DistributedExec` has already started the stages the inner one wants to start. -/
theorem C23_analyze_again_false {dyn : Bool} {p : Plan Row} {q : Phys Row} (hn : hasNet p = true)
    (h : create env dyn fuel (.distAnalyze (.distributed (.plan p))) = .ok q) :
    ∃ p', (q = .distAnalyze (.distributed (.plan p')) ∧ hasNet p' = false)
      ∨ (q = .distributed (.distAnalyze (.distributed (.plan p')))
        ∧ ∀ (U : Type) (route : Plan Row → Nat → Except Err (List U)) fuel r, execute route fuel 0 q ≠ .ok r) := by
  rw [create] at h
  · simp only [Phys.hasNet, hn, if_true] at h
    obtain ⟨q', h1, h⟩ := mbind_ok h
    simp only [Phys.update] at h1
    obtain ⟨q2, h2, e2⟩ := mbind_ok h1
    obtain ⟨q3, h3, e3⟩ := mbind_ok h2
    obtain ⟨p', h4, e4⟩ := mbind_ok h3
    cases e4; cases e3; cases e2
    refine ⟨p', ?_⟩
    replace h : (if (!hasNet p') = true then Except.ok (Phys.distAnalyze (.distributed (.plan p')))
      else .ok (.distributed (.distAnalyze (.distributed (.plan p'))))) = (Except.ok q : M (Phys Row)) := h
    cases hp : hasNet p' with
    | false =>
      rw [hp] at h
      cases h
      exact .inl ⟨rfl, rfl⟩
    | true =>
      rw [hp] at h
      cases h
      refine .inr ⟨rfl, fun U route fuel r => ?_⟩
      simp only [execute]
      exact startTimes_twice hp r
  all_goals simp

/-! ### User-placed boundaries -/

/-- What scale-up handlers return is again a leaf, and no boundary (as `DistributedLeafExec`). -/
def ScalesToLeaf (env : Env Row) : Prop :=
  ∀ p T p', env.scale p T = some (.ok p') → p'.children = [] ∧ p'.kind.isNet = false ∧ p'.kind.isHead = false

theorem eachUntilStop_inv {A S : Type} {g : Plan Row → A → S → M (Tr Row × S)} (hg : ∀ c a s r s', g c a s = .ok (r, s') → r.tnr ≠ .stop) :
    ∀ {cs : List (Plan Row)} {arg : Nat → A} {s r}, eachUntilStop g arg s cs = .ok r → r.1.length = cs.length ∧
      r.2.1 = false ∧ ∀ (i : Nat) c c', cs[i]? = some c → r.1[i]? = some c' → ∃ s r' s', g c (arg i) s = .ok (r', s') ∧ c' = r'.data
  | [], arg, s, r, h => by
    cases h; exact ⟨rfl, rfl, fun i c c' h => by simp at h⟩
  | c :: cs, arg, s, r, h => by
    rw [eachUntilStop] at h
    obtain ⟨⟨r1, s1⟩, h1, h⟩ := mbind_ok h
    simp only [if_neg (hg _ _ _ _ _ h1)] at h
    obtain ⟨r2, h2, h⟩ := mbind_ok h
    cases h
    obtain ⟨a1, a2, a3⟩ := eachUntilStop_inv hg h2
    refine ⟨by simp [a1], a2, fun i x x' hx hx' => ?_⟩
    cases i with
    | zero => cases hx; cases hx'; exact ⟨s, r1, s1, h1, rfl⟩
    | succ i => exact a3 i x x' (by simpa using hx) (by simpa using hx')

theorem down_scale (hs : ScalesToLeaf env) : ∀ (n : Nat) (p : Plan Row) (T : Nat) (r : Tr Row) (s s' : Unit),
    down (scaleVisit env) n p T s = .ok (r, s') → r.tnr = .cont ∧ Scaled env T p r.data
  | 0, p, T, r, s, s', h => by cases h
  | n + 1, .node k tc cs, T, r, s, s', h => by
    rw [down] at h
    obtain ⟨⟨r1, s1⟩, h1, h⟩ := mbind_ok h
    simp only [scaleVisit, Plan.children] at h1
    by_cases hne : cs = []
    · subst hne
      simp only [List.isEmpty_nil, Bool.not_true, Bool.false_eq_true, if_false] at h1
      split at h1
      · rename_i e
        cases h1
        simp only [Plan.children, eachUntilStop] at h
        cases h
        exact ⟨rfl, .kept e⟩
      · cases h1
      · rename_i p' e
        cases h1
        obtain ⟨a1, a2, _⟩ := hs _ _ _ e
        cases p' with
        | node k1 tc1 cs1 =>
          simp only [Plan.children] at a1
          subst a1
          simp only [Plan.children, eachUntilStop] at h
          cases h
          exact ⟨rfl, .scaled e⟩
    · have hempty : (!cs.isEmpty) = true := by cases cs with | nil => exact absurd rfl hne | cons => rfl
      have h1 : (Except.ok (⟨.node k tc cs, .cont⟩, s) : M (Tr Row × Unit)) = .ok (r1, s1) := by
        rw [← h1]; exact (if_pos hempty).symm
      cases h1
      simp only [Plan.children, Plan.kind] at h
      obtain ⟨⟨cs', st, s2⟩, h2, h⟩ := mbind_ok h
      obtain ⟨a1, a2, a3⟩ := eachUntilStop_inv (fun c a s r s' h e => by
        rw [(down_scale hs n c a r s s' h).1] at e; cases e) h2
      simp only at a1 a2 a3
      subst a2
      cases h
      refine ⟨rfl, .node hne a1 fun i c c' hc hc' => ?_⟩
      obtain ⟨s3, r', s4, b1, rfl⟩ := a3 i c c' hc hc'
      exact (down_scale hs n c _ r' s3 s4 b1).2

theorem scaleLeaves_spec (hs : ScalesToLeaf env) {p p' : Plan Row} (h : scaleLeaves env fuel p = .ok p') : Scaled env 1 p p' := by
  unfold scaleLeaves at h
  obtain ⟨⟨r, r'⟩, h1, h⟩ := mbind_ok h
  cases h
  have h2 := C26_down (scaleVisit env) fuel p 1 ()
  rw [h1] at h2
  exact (down_scale hs fuel p 1 r () r'.2 h2.symm).2

theorem scaled_unary (hs : ScalesToLeaf env) {T T' : Nat} {p p' : Plan Row} (h : Scaled env T p p')
    (hu : Every (fun _ => Unary) T p) : Every (fun _ => Unary) T' p' := by
  induction h generalizing T' with
  | kept => exact every_const hu
  | scaled e =>
    rename_i p'
    obtain ⟨a1, a2, a3⟩ := hs _ _ _ e
    cases p' with
    | node k1 tc1 cs1 =>
      simp only [Plan.children] at a1
      subst a1
      refine every_node.mpr ⟨fun hk => ?_, fun i c hc => by simp at hc⟩
      simp only [Plan.kind] at a2 a3 hk
      simp [a2, a3] at hk
  | node hne hl _ ih =>
    obtain ⟨u1, u2⟩ := every_node.mp hu
    refine every_node.mpr ⟨fun hk => ?_, fun i c' hc' => ?_⟩
    · have := u1 hk
      simp only [Plan.children] at this ⊢
      omega
    · rename_i T k tc cs cs' _
      have hi : i < cs.length := by rw [← hl]; exact (List.getElem?_eq_some_iff.mp hc').1
      exact ih i cs[i] c' (by simp [hi]) hc' (u2 i cs[i] (by simp [hi]))

/-- **C23** (user-placed boundaries) A plan in which the user placed boundaries keeps them: its leaves are scaled up to the
tasks they run with, boundaries with one producer and one consumer task are taken out, and the remaining ones get the
stage numbers `1, 2, …`. -/
theorem C23_user_boundaries (hs : ScalesToLeaf env) {dyn : Bool} {p : Plan Row} {q : Phys Row} (hn : hasNet p = true)
    (hu : ∀ t x, At 1 p t x → Unary x) (h : create env dyn fuel (.plan p) = .ok q) :
    ∃ p1 p2 id, Scaled env 1 p p1 ∧ prepare false p1 1 1 = .ok (p2, id)
      ∧ stageNums p2 = List.range' 1 (id - 1)
      ∧ (∀ t x, At 1 p2 t x → x.kind.isNet = true → ¬ (t = 1 ∧ x.kind.tasks = 1))
      ∧ ((hasNet p2 = true ∧ q = .distributed (.plan p2)) ∨ (hasNet p2 = false ∧ q = .plan p2)) := by
  rw [create] at h
  · simp only [Phys.hasNet, hn, if_true] at h
    obtain ⟨q', h1, h⟩ := mbind_ok h
    simp only [Phys.update] at h1
    obtain ⟨p2, h2, e⟩ := mbind_ok h1
    cases e
    obtain ⟨p1, h2, h4⟩ := mbind_ok h2
    obtain ⟨⟨p2', id⟩, h3, h5⟩ := mbind_ok h4
    cases h5
    have h3 := lift_ok h3
    have hsc := scaleLeaves_spec hs h2
    have hun : Every (fun _ => Unary) 1 p1 := scaled_unary hs hsc hu
    refine ⟨p1, p2, id, hsc, h3, C21_prepare_numbers hun h3, ?_, ?_⟩
    · refine prepare_every (P := fun _ => Unary) ?_ ?_ ?_ h3 hun
      · intro t k tc cs cs' hk hl h e
        simp only [Plan.kind] at e
        rcases hk with hk | rfl
        · rw [e] at hk; cases hk
        · have := h (.inl e)
          simp only [Plan.children] at this
          rw [this] at hl; cases hl
      · intro t k tc c hk e
        simp only [Plan.kind] at e
        rw [isHead_isNet hk] at e; cases e
      · intro t k tc c rest id c' c'' hk hne _ _ _ _ _
        simpa [Plan.kind, withStage_tasks] using hne
    · replace h : (if (!hasNet p2) = true then Except.ok (Phys.plan p2)
        else .ok (.distributed (.plan p2))) = (Except.ok q : M (Phys Row)) := h
      cases hp : hasNet p2 with
      | false => rw [hp] at h; cases h; exact .inr ⟨rfl, rfl⟩
      | true => rw [hp] at h; cases h; exact .inl ⟨rfl, rfl⟩
  all_goals simp

/-! ### The theorems apply -/

namespace Demo

open DD.Tree.Demo

/-- One worker for all tasks. -/
def toOne (_ : Plan (Nat × Nat)) (n : Nat) : Except Err (List Nat) := .ok (List.range n)

/-- The distributed plan, if planning returned one. -/
def made : M (Phys (Nat × Nat)) → Option (Plan (Nat × Nat))
  | .ok (.distributed (.plan p)) => some p
  | _ => none

/-- A gathered scan, with a boundary placed by the user below the gather; the boundary has one producer task. -/
def placed (tasks : Nat) : Plan (Nat × Nat) :=
  fresh (.coalesce none) [fresh (.netCoalesce (2 * tasks) tasks 0) [fresh (.leaf [[(1, 1)], [(2, 2)]]) []]]

/-- A session whose scale-up handler leaves leaves alone that run in one task. -/
def lazy : Env (Nat × Nat) := { sess with scale := fun p T => if T = 1 then none else sess.scale p T }

end Demo

/-- C56 applies: the query of **C08**'s example is started; its three stages have seven tasks. -/
example : ∃ p' h sent rem, plan Demo.sess Demo.input = .ok (some p')
    ∧ start Demo.toOne (depth p') p' = .ok (h, sent, rem) ∧ hasNet p' = true
    ∧ (∀ s ∈ sent, ∃ t b c, At 1 p' t b ∧ b.kind.isNet = true ∧ b.children = [c] ∧ s.stage = b.kind.num
        ∧ s.plan = share ⟨s.task, b.kind.tasks⟩ (cut c)) := by
  obtain ⟨p', hp⟩ := planned_of (env := Demo.sess) (p := Demo.input) (by decide +kernel)
  obtain ⟨h, sent, rem, h1, h2⟩ := C56_planned_plans_start Demo.sess_ok Demo.input_src rfl (.inr (by
      intro p1 h1
      have : normalize Demo.sess Demo.input = .ok Demo.input := by rfl
      rw [this] at h1; cases h1
      exact ⟨by decide +kernel, rfl⟩)) hp
    (route := Demo.toOne) (fun c n => ⟨_, rfl, by simp⟩) (Nat.le_refl _)
  obtain ⟨_, _, p3, _, _, _, _, h4, e⟩ := plan_steps hp
  refine ⟨p', h, sent, rem, hp, h1, ?_, h2⟩
  rw [e]
  split
  · rw [hasNet_partialReduce]; exact h4
  · exact h4

/-- C23 applies: a query that is distributed, and one worker, with which it is not. -/
example : hasNet Demo.input = false
    ∧ (∃ q, create Demo.sess false 0 (.plan Demo.input) = .ok (.distributed (.plan q)))
    ∧ create { Demo.sess with maxTasks := 1 } false 0 (.plan Demo.input) = .ok (.plan Demo.input) := by
  refine ⟨by decide +kernel, ?_, ?_⟩
  · obtain ⟨p', hp⟩ := planned_of (env := Demo.sess) (p := Demo.input) (by decide +kernel)
    refine ⟨p', ?_⟩
    rw [create, if_neg (by decide +kernel), if_neg (by decide), hp]; rfl
  · have hn : (match plan { Demo.sess with maxTasks := 1 } Demo.input with | .ok none => true | _ => false) = true := by
      decide +kernel
    rw [create, if_neg (by decide +kernel), if_neg (by decide)]
    split at hn
    · rename_i e; rw [e]; rfl
    · cases hn

/-- C23 applies to user-placed boundaries: one with two producer tasks is kept, one with one is taken out. -/
example : (match create Demo.sess false 4 (.plan (Demo.placed 2)) with
    | .ok (.distributed (.plan p)) => stageNums p == [1]
    | _ => false) = true
    ∧ (match create Demo.sess false 4 (.plan (Demo.placed 1)) with
      | .ok (.plan p) => !hasNet p
      | _ => false) = true := by decide +kernel

/-- **C23 is false** for user-placed boundaries that are all taken out: the plan returned is not the one given, and planning
it again, now without boundaries, distributes it (in a session whose scale-up handler leaves the leaf of a single task as it
is). -/
theorem C23_user_again_false : ∃ q, hasNet (Demo.placed 1) = true
    ∧ create Demo.lazy false 4 (.plan (Demo.placed 1)) = .ok (.plan q) ∧ hasNet q = false
    ∧ (match create Demo.lazy false 4 (.plan q) with | .ok (.distributed (.plan p)) => hasNet p | _ => false) = true := by
  have h : (match create Demo.lazy false 4 (.plan (Demo.placed 1)) with
    | .ok (.plan q) => !hasNet q
      && (match create Demo.lazy false 4 (.plan q) with | .ok (.distributed (.plan p)) => hasNet p | _ => false)
    | _ => false) = true := by decide +kernel
  split at h
  · rename_i q e
    rw [Bool.and_eq_true] at h
    exact ⟨q, by decide +kernel, e, by simpa using h.1, h.2⟩
  · cases h

/-- `C23_analyze_again_false` applies: `EXPLAIN ANALYZE` of a distributed query, planned twice. -/
example : ∃ q p', create Demo.sess false 12 (.analyze (.plan Demo.input)) = .ok q
    ∧ create Demo.sess false 12 q = .ok (.distributed (.distAnalyze (.distributed (.plan p')))) := by
  have h : (match create Demo.sess false 12 (.analyze (.plan Demo.input)) with
    | .ok q => (match create Demo.sess false 12 q with
      | .ok (.distributed (.distAnalyze (.distributed (.plan _)))) => true
      | _ => false)
    | _ => false) = true := by decide +kernel
  split at h
  · rename_i q e
    split at h
    · rename_i p' e'
      exact ⟨q, p', e, e'⟩
    · cases h
  · cases h

end DD.Tree.Create
