/-
**C58**: choosing task counts while the query runs.
-/
import Verif.Lemmas.Dynamic
import Verif.Props.PlanShape

namespace DD.Tree

variable {Row : Type} {env : Env Row}

/-- **C58** For every plan covered by `Src` and every session, whatever cost every stage is given (so whatever the
samplers report, and whatever `dynamic_bytes_per_partition` is): if preparing succeeds, the head stage has one partition
and its rows are, as a multiset, one of the answers the original plan may return.

Roots that are not gathered: `C58_ungathered_root_partial`. Missing for the full claim: as in
`C08_distributed_is_an_answer_partial`, and user-placed boundaries. -/
theorem C58_is_an_answer_partial (he : EnvOk env) {p p' : Plan Row} {J : SInfo Row} (h : Src env .pre p J)
    (hE : J.eqv = .perm) (hrep : J.rep = false) (hroot : RootOk env p J)
    (cpu : Plan Row → Plan Row → Except Err (Option Nat)) (bytes : Nat)
    (hp : dynamicPlan (env.costing cpu bytes) p = .ok p') :
    p'.parts = 1 ∧ ∃ d, Answer p d ∧ (distributed p').Perm d := by
  obtain ⟨_, l, e⟩ := dynamic_src (he.costing cpu bytes) (h.costing cpu bytes) hrep (hroot.costing cpu bytes) hp
  obtain ⟨h1, d, hd, e1⟩ := l.distributed
  obtain ⟨d', hd', e2⟩ := e d hd
  rw [hE] at e1 e2
  exact ⟨h1, d', hd', List.Perm.trans e1 e2⟩

/-- **C58** If the query has only one answer: the rows of the original plan run on a single node. -/
theorem C58_same_rows_partial (he : EnvOk env) {p p' : Plan Row} {J : SInfo Row} (h : Src env .pre p J)
    (hE : J.eqv = .perm) (hrep : J.rep = false) (hroot : RootOk env p J) (hone : OneAnswer p)
    (cpu : Plan Row → Plan Row → Except Err (Option Nat)) (bytes : Nat)
    (hp : dynamicPlan (env.costing cpu bytes) p = .ok p') :
    p'.parts = 1 ∧ (distributed p').Perm (singleNode p) := by
  obtain ⟨h1, d, hd, e⟩ := C58_is_an_answer_partial he h hE hrep hroot cpu bytes hp
  obtain ⟨d', hd', e'⟩ := C08_single_node_is_an_answer h hE hrep
  exact ⟨h1, (e.trans (hone d d' hd hd')).trans e'.symm⟩

/-- **C58** Two runs of a query that has only one answer return the same rows, whatever their samplers report, and a run
with static task counts returns them too. -/
theorem C58_statistics_do_not_matter_partial (he : EnvOk env) {p p1 p2 p3 : Plan Row} {J : SInfo Row}
    (h : Src env .pre p J) (hE : J.eqv = .perm) (hrep : J.rep = false) (hroot : RootOk env p J) (hone : OneAnswer p)
    {cpu1 cpu2 : Plan Row → Plan Row → Except Err (Option Nat)} {bytes1 bytes2 : Nat}
    (hp1 : dynamicPlan (env.costing cpu1 bytes1) p = .ok p1) (hp2 : dynamicPlan (env.costing cpu2 bytes2) p = .ok p2)
    (hp3 : plan env p = .ok (some p3)) :
    (distributed p1).Perm (distributed p2) ∧ (distributed p1).Perm (distributed p3) := by
  have h1 := (C58_same_rows_partial he h hE hrep hroot hone cpu1 bytes1 hp1).2
  have h2 := (C58_same_rows_partial he h hE hrep hroot hone cpu2 bytes2 hp2).2
  have h3 := (C08_distributed_eq_single_node_partial he h hE hrep hroot hone hp3).2
  exact ⟨h1.trans h2.symm, h1.trans h3.symm⟩

theorem dynamic_nodeOk (he : EnvOk env) (hs : ScalesLeaves env) {p p' : Plan Row} (hu : Undistributed p)
    (hp : dynamicPlan env p = .ok p') : Every (NodeOk env) 1 p' := by
  obtain ⟨p1, p2, id, h1, h2, h3⟩ := dynamic_steps hp
  exact prepare_nodeOk h3 ((dynamic_pre (D := False) he hs False.elim hu False.elim h1 h2).imp fun _ _ h => h.toNodeOk)

theorem dynamic_post (he : EnvOk env) (hs : ScalesLeaves env) {D : Prop} (hD : D → ScalesToSources env) {p p' : Plan Row}
    (hu : Undistributed p) (hg : ∀ p1, D → preparePlan env p = .ok p1 → NotDealtAndGathered p1)
    (hp : dynamicPlan env p = .ok p') : Every (PostNet D) 1 p' := by
  obtain ⟨p1, p2, id, h1, h2, h3⟩ := dynamic_steps hp
  exact prepare_post h3 (dynamic_pre (D := D) he hs hD hu (fun d => hg p1 d h1) h1 h2)

/-- **C58** Whatever the costs: every node, and so every stage, runs in at least one and at most `max_tasks` tasks. -/
theorem C58_task_counts (he : EnvOk env) (hs : ScalesLeaves env) {p p' : Plan Row} (hu : Undistributed p)
    (cpu : Plan Row → Plan Row → Except Err (Option Nat)) (bytes : Nat)
    (hp : dynamicPlan (env.costing cpu bytes) p = .ok p') {t : Nat} {x : Plan Row} (hx : At 1 p' t x) :
    (1 ≤ t ∧ t ≤ env.maxTasks) ∧ (x.kind.isNet = true → 1 ≤ x.kind.tasks ∧ x.kind.tasks ≤ env.maxTasks) := by
  have h := dynamic_nodeOk (he.costing cpu bytes) hs hu hp
  exact ⟨NodeOk.counts (env := env.costing cpu bytes) hx h ⟨Nat.le_refl 1, he.maxTasks⟩, fun hn => ((h t x hx).net hn).2⟩

/-- **C58** Whatever the costs: a join whose build side must not be replicated runs in exactly one task. -/
theorem C58_unsafe_joins_run_in_one_task (he : EnvOk env) (hs : ScalesLeaves env) {p p' : Plan Row} (hu : Undistributed p)
    (cpu : Plan Row → Plan Row → Except Err (Option Nat)) (bytes : Nat)
    (hp : dynamicPlan (env.costing cpu bytes) p = .ok p') {t : Nat} {x : Plan Row} (hx : At 1 p' t x)
    (hk : MustNotReplicate env x.kind) : t = 1 :=
  (dynamic_nodeOk (he.costing cpu bytes) hs hu hp t x hx).pinned (pinned_of_mustNotReplicate (env := env) hk)

/-- **C58** Every boundary's input was built for exactly as many consumer tasks as run the boundary, although those
are chosen after the input was sent to its workers. -/
theorem C58_built_for_its_consumers (he : EnvOk env) (hs : ScalesLeaves env) {p p' : Plan Row} (hu : Undistributed p)
    (cpu : Plan Row → Plan Row → Except Err (Option Nat)) (bytes : Nat)
    (hp : dynamicPlan (env.costing cpu bytes) p = .ok p') {t : Nat} {x : Plan Row} (hx : At 1 p' t x) : BuiltFor t x :=
  (dynamic_post (D := False) (he.costing cpu bytes) hs False.elim hu (fun _ d => d.elim) hp t x hx).planned.builtFor

/-- **C58** Whenever one of the `t` tasks that run a boundary asks a producer task for partitions, that task exists and the
plan its worker runs has all of them. Missing as in `C05_requests_exist_partial`: coalesces above a `RepartitionExec`
that is not a hash repartitioning. -/
theorem C58_requests_exist_partial (he : EnvOk env) (hs : ScalesLeaves env) {p p' : Plan Row} (hu : Undistributed p)
    (cpu : Plan Row → Plan Row → Except Err (Option Nat)) (bytes : Nat)
    (hp : dynamicPlan (env.costing cpu bytes) p = .ok p') {t : Nat} {x : Plan Row} (hx : At 1 p' t x)
    (hn : x.kind.isNet = true)
    (hc : (∀ P n i, x.kind ≠ .netCoalesce P n i)
      ∨ (ScalesToSources env ∧ NotDealtAndGathered p ∧ ∀ n deal, p.kind ≠ .otherRepart n deal))
    {i q : Nat} (hi : i < t) (hq : q < x.kind.netParts) :
    ∃ pulls c w, requests x.kind ⟨i, t⟩ q = .ok pulls ∧ x.children = [c] ∧ workerPlan x.kind t c = .ok w ∧
      ∀ r ∈ pulls, r.task < x.kind.tasks ∧ r.lo ≤ r.partition ∧ r.partition < r.hi ∧ r.hi ≤ w.parts :=
  (dynamic_post (D := ScalesToSources env ∧ NotDealtAndGathered p ∧ ∀ n deal, p.kind ≠ .otherRepart n deal)
    (he.costing cpu bytes) hs (fun d => d.1) hu (fun p1 d h1 => preparePlan_notDealt d.2.1 d.2.2 h1) hp t x hx).planned.requests
    hn (C58_task_counts he hs hu cpu bytes hp hx |>.2 hn).1 hc hi hq

/-- A stage read through a shuffle or a broadcast has a sampler right below its head. -/
def Sampled (x : Plan Row) : Prop :=
  ((∃ h p n i, x.kind = .shuffle h p n i) ∨ ∃ p n i, x.kind = .netBroadcast p n i) →
    ∃ k tc tc' y, x.children = [.node k tc [.node samplerKind tc' [y]]] ∧ k.isHead = true

theorem Sampled.of_plain {x : Plan Row} (h : x.kind.isNet = false) : Sampled x := by
  rintro (⟨_, _, _, _, e⟩ | ⟨_, _, _, e⟩) <;> (rw [e] at h; cases h)

/-- **C58** Every stage whose load the coordinator asks for has a sampler, so waiting for its reports never fails with a
missing sampler: these are the stages read through shuffles and broadcasts. -/
theorem C58_every_asked_stage_has_a_sampler (he : EnvOk env) (hs : ScalesLeaves env) {p p' : Plan Row} (hu : Undistributed p)
    (cpu : Plan Row → Plan Row → Except Err (Option Nat)) (bytes : Nat)
    (hp : dynamicPlan (env.costing cpu bytes) p = .ok p') {t : Nat} {x : Plan Row} (hx : At 1 p' t x) : Sampled x := by
  obtain ⟨p1, p2, id, h1, h2, h3⟩ := dynamic_steps hp
  have h0 := (inject_shape (D := False) (he.costing cpu bytes) hs False.elim (preparePlan_plain hu h1)
    (fun d => d.elim) h2).2 rfl
  have h4 : Every (fun _ x => Unary x ∧ Sampled x) 1 (sample p2) := by
    refine sample_every (P := PreOk (env.costing cpu bytes) False) ?_ ?_ ?_ ?_ h0
    · intro t k tc cs hk hP
      refine ⟨?_, .of_plain hk⟩
      rintro (e | e)
      · simp only [Plan.kind] at e; rw [hk] at e; cases e
      · have := hP.head e; simp only [Plan.children, List.length_map] at this ⊢; exact this
    · intro t k tc cs hk hP
      obtain ⟨c, hc⟩ := (hP.net hk).1
      simp only [Plan.children] at hc
      subst hc
      refine ⟨fun _ => rfl, ?_⟩
      rintro (⟨f, p, n, i, e⟩ | ⟨p, n, i, e⟩)
      · obtain ⟨o, tc1, tc2, y, e2⟩ := hP.pre.1 f p n i e
        simp only [Plan.kind] at e
        cases e2
        simp only [List.map_cons, List.map_nil]
        rw [sample_plain rfl]
        simp only [List.map_cons, List.map_nil]
        rw [insertSampler_head rfl]
        exact ⟨_, _, _, _, rfl, rfl⟩
      · obtain ⟨tc1, b, tc2, y, e2, _⟩ := hP.pre.2.1 p n i e
        simp only [Plan.kind] at e
        cases e2
        simp only [List.map_cons, List.map_nil]
        rw [sample_plain rfl]
        simp only [List.map_cons, List.map_nil]
        rw [insertSampler_head rfl]
        exact ⟨_, _, _, _, rfl, rfl⟩
    · intro t k tc c hk
      exact ⟨fun _ => rfl, .of_plain (isHead_not_net hk)⟩
    · intro t c
      exact ⟨fun _ => rfl, .of_plain rfl⟩
  refine prepare_every (P := fun _ x => Unary x ∧ Sampled x) (Q := fun _ => Sampled) ?_ ?_ ?_ h3 h4 t x hx
  · intro t k tc cs cs' hk l ⟨hU, _⟩
    refine .of_plain ?_
    rcases hk with hk | rfl
    · exact hk
    · cases hk : k.isNet with
      | false => exact hk
      | true => have := hU (.inl hk); simp only [Plan.children] at this; simp [this] at l
  · intro t k tc c hk
    exact .of_plain (isHead_not_net hk)
  · intro t k tc c rest id c' c'' hk _ ⟨hU, hS⟩ _ ⟨a, b, hprep⟩ hins hkind
    have hkk : (∃ h p n i, k = .shuffle h p n i) ∨ ∃ p n i, k = .netBroadcast p n i := by
      rcases hkind with ⟨h, p, n, i, e⟩ | ⟨p, n, i, e⟩ <;> cases k <;> first | cases e | skip
      · exact .inl ⟨_, _, _, _, rfl⟩
      · exact .inr ⟨_, _, _, rfl⟩
    obtain ⟨k1, tc1, tc2, y, e1, e2⟩ := hS hkk
    simp only [Plan.children, List.cons.injEq] at e1
    obtain ⟨rfl, rfl⟩ := e1
    obtain ⟨cs1, e3, l1, hi1⟩ := prepare_kind hprep (isHead_not_net e2)
    obtain ⟨z, rfl⟩ := one_of_length (show cs1.length = 1 from l1)
    obtain ⟨z0, a1, b1, x1, x2⟩ := hi1 0 z rfl
    simp only [Plan.children, List.getElem?_cons_zero, Option.some.injEq] at x1
    subst x1
    obtain ⟨cs2, e4, l2, _⟩ := prepare_kind x2 rfl
    obtain ⟨w, rfl⟩ := one_of_length (show cs2.length = 1 from l2)
    have hst : strip c' = .node samplerKind tc2 [w] := by
      rw [e3, e4]
      simp only [Plan.kind, Plan.tc, strip, e2, if_true]
    rcases insert_inv hins with ⟨e, _⟩ | ⟨f, n, _, rfl⟩ | ⟨n, _, _, rfl⟩
    · rcases hkk with ⟨_, _, _, _, rfl⟩ | ⟨_, _, _, rfl⟩ <;> cases e
    · rw [hst]; exact ⟨_, _, _, _, rfl, rfl⟩
    · rw [hst]; exact ⟨_, _, _, _, rfl, rfl⟩

/-! ### Instances -/

namespace Demo

/-- Costs that leave the build side of `input` at the three tasks its scan asks for and make everything else run in as
many as allowed. -/
def cost (o q : Plan (Nat × Nat)) : Except Err (Option Nat) :=
  match o.kind, q.kind with
  | .broadcast _, _ => .ok (some 20)
  | _, _ => .ok (some 1000)

def dyn : Env (Nat × Nat) := sess.costing cost 5

def dynOr (p : Plan (Nat × Nat)) : Plan (Nat × Nat) :=
  match dynamicPlan dyn p with
  | .ok p' => p'
  | _ => p

mutual
/-- The task counts of the stages, inputs first. -/
def stageTasks : Plan (Nat × Nat) → List Nat
  | .node k _ cs => stageTasksAll cs ++ (if k.isNet then [k.tasks] else [])
def stageTasksAll : List (Plan (Nat × Nat)) → List Nat
  | [] => []
  | c :: cs => stageTasks c ++ stageTasksAll cs
end

theorem dynOr_ok {p : Plan (Nat × Nat)} (h : (match dynamicPlan dyn p with | .ok _ => true | _ => false) = true) :
    dynamicPlan dyn p = .ok (dynOr p) := by
  unfold dynOr
  split at h
  · rename_i p' e; rw [e]
  · cases h

end Demo

/-- Non-vacuity: the query runs in two stages, of three and four tasks, and the rows are the same. -/
example : ∃ p', dynamicPlan Demo.dyn Demo.input = .ok p' ∧ Demo.stageTasks p' = [3, 4]
    ∧ (distributed p').Perm (singleNode Demo.input) ∧ EnvOk Demo.sess ∧ ScalesLeaves Demo.sess
    ∧ Undistributed Demo.input := by
  have hp := Demo.dynOr_ok (p := Demo.input) (by decide +kernel)
  refine ⟨_, hp, by decide +kernel, ?_, Demo.sess_ok, Demo.sess_scales, undistributed_of (by decide +kernel)⟩
  refine (C58_same_rows_partial Demo.sess_ok Demo.input_src rfl rfl (.inr ?_) Demo.input_det.oneAnswer Demo.cost 5 hp).2
  intro p1 h1
  have : normalize Demo.sess Demo.input = .ok Demo.input := by rfl
  rw [this] at h1; cases h1
  exact ⟨by decide +kernel, rfl⟩

/-- A plan with a join that may not be replicated, below an isolated union. -/
example : ∃ p', dynamicPlan Demo.dyn Demo.leftJoin = .ok p' ∧ Demo.stageTasks p' = [3, 4, 4]
    ∧ Undistributed Demo.leftJoin :=
  ⟨_, Demo.dynOr_ok (p := Demo.leftJoin) (by decide +kernel), by decide +kernel, undistributed_of (by decide +kernel)⟩

end DD.Tree
