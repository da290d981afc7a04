/-
**C05**, **C06**, **C20**–**C25**: the shape of distributed plans.
-/
import Verif.Lemmas.PlanShapePrepare
import Verif.Lemmas.PlanShapeDeal
import Verif.Props.Join

namespace DD.Tree

variable {Row : Type} {env : Env Row} {keep : Bool}

/-! ### **C20** -/

/-- **C20** For every undistributed plan, every session whose handlers wish for at least one task and scale leaves
up to plans without boundaries, and every boundary of the planned plan: its input stage has at least one and
at most `max_tasks` tasks. -/
theorem C20_stage_task_counts (he : EnvOk env) (hs : ScalesLeaves env) {p p' : Plan Row} (hu : Undistributed p)
    (hp : plan env p = .ok (some p')) {t : Nat} {x : Plan Row} (hx : At 1 p' t x) (hn : x.kind.isNet = true) :
    1 ≤ x.kind.tasks ∧ x.kind.tasks ≤ env.maxTasks :=
  ((plan_nodeOk he hs hu hp t x hx).net hn).2

theorem NodeOk.counts {T : Nat} {q : Plan Row} {t : Nat} {x : Plan Row} (hx : At T q t x) : Every (NodeOk env) T q →
    1 ≤ T ∧ T ≤ env.maxTasks → 1 ≤ t ∧ t ≤ env.maxTasks := by
  induction hx with
  | root => exact fun _ h => h
  | @child T k tc cs i c t x hc _ ih =>
    intro hq hT
    obtain ⟨q1, q2⟩ := every_node.mp hq
    refine ih (q2 i c hc) ?_
    by_cases hn : k.isNet = true
    · rw [childCount_net hn]; exact (q1.net hn).2
    · by_cases hcu : ∃ ws m, k = .ciu ws m
      · obtain ⟨ws, m, rfl⟩ := hcu
        exact q1.branches ws m rfl i (List.getElem?_eq_some_iff.mp hc).1
      · rw [childCount_same (by simpa using hn) (fun ws m e => hcu ⟨ws, m, e⟩)]; exact hT

/-- **C20**, for nodes instead of stages: every node of a planned plan runs in at least one and at most `max_tasks`
tasks, also in the branches of isolated unions. -/
theorem C20_node_task_counts (he : EnvOk env) (hs : ScalesLeaves env) {p p' : Plan Row} (hu : Undistributed p)
    (hp : plan env p = .ok (some p')) {t : Nat} {x : Plan Row} (hx : At 1 p' t x) :
    1 ≤ t ∧ t ≤ env.maxTasks :=
  NodeOk.counts hx (plan_nodeOk he hs hu hp) ⟨Nat.le_refl 1, he.maxTasks⟩

mutual
/-- The task counts of the input stages of the boundaries of a plan, for the witness below. -/
def stageTasks : Plan Row → List Nat
  | .node k _ cs => (if k.isNet then [k.tasks] else []) ++ stageTasksAll cs
/-- `stageTasks` of every child. -/
def stageTasksAll : List (Plan Row) → List Nat
  | [] => []
  | c :: cs => stageTasks c ++ stageTasksAll cs
end

/-- **C20 needs the handlers' wishes**: a handler that wishes for zero tasks, be it as a desired number or as a maximum, gets
a stage without tasks, nothing in the planner raises the number to one. -/
theorem C20_wish_for_zero_tasks_false :
    (match plan { Demo.sess with desired := fun _ => .ok (some (.desired 0)) } Demo.small with
      | .ok (some p) => stageTasks p
      | _ => []) = [0]
    ∧ (match plan { Demo.sess with desired := fun _ => .ok (some (.maximum 0)) } Demo.small with
      | .ok (some p) => stageTasks p
      | _ => []) = [0] := by decide +kernel

/-! ### **C22** -/

theorem pinned_of_mustNotReplicate {k : Kind Row} (h : MustNotReplicate env k) : pinned env k = true := by
  cases k with
  | join m s =>
    cases m with
    | collect =>
      rcases h with h | h | h
      · simp [pinned, h]
      · cases hn : s.nullAware with
        | none => exact absurd hn h
        | some => simp [pinned, hn]
      · cases hj : s.jt <;> simp [pinned, hj, JoinType.broadcastSafe] at h ⊢
    | nested =>
      rcases h with h | h
      · simp [pinned, h]
      · cases hj : s.jt <;> simp [pinned, hj, JoinType.broadcastSafe] at h ⊢
    | cross => simp [pinned, show env.broadcastJoins = false from h]
    | partitioned => cases h
  | _ => cases h

/-- **C22** In every planned plan, a join whose build side must not be replicated runs in exactly one task, whatever
the handlers and the other nodes of its stage ask for. -/
theorem C22_unsafe_joins_run_in_one_task (he : EnvOk env) (hs : ScalesLeaves env) {p p' : Plan Row}
    (hu : Undistributed p) (hp : plan env p = .ok (some p')) {t : Nat} {x : Plan Row} (hx : At 1 p' t x)
    (hk : MustNotReplicate env x.kind) : t = 1 :=
  (plan_nodeOk he hs hu hp t x hx).pinned (pinned_of_mustNotReplicate hk)

/-! ### **C21** -/

theorem stageNumsAll_eq (cs : List (Plan Row)) : stageNumsAll cs = cs.flatMap stageNums := by
  induction cs with
  | nil => rw [stageNumsAll]; rfl
  | cons c cs ih => rw [stageNumsAll, ih]; rfl

theorem stageNums_node (k : Kind Row) (tc) (cs : List (Plan Row)) :
    stageNums (.node k tc cs) = cs.flatMap stageNums ++ (if k.isNet then [k.num] else []) := by
  rw [stageNums, stageNumsAll_eq]

theorem isHead_isNet {k : Kind Row} (h : k.isHead = true) : k.isNet = false := by
  cases k <;> first | rfl | cases h

theorem stageNums_strip {c : Plan Row} (h : Unary c) : stageNums (strip c) = stageNums c := by
  rcases strip_cases c with e | ⟨hk, x, rest, e, e'⟩
  · rw [e]
  · rw [e']
    cases c with
    | node k tc cs =>
      have hl := h (.inr hk)
      simp only [Plan.children] at e hl
      subst e
      have : rest = [] := by simpa using hl
      subst this
      rw [stageNums_node]
      simp only [Plan.kind] at hk
      simp [isHead_isNet hk]

theorem stageNums_insert {hd : Head Row} {c c' : Plan Row} (hu : Unary c) (h : hd.insert c = .ok c') :
    stageNums c' = stageNums c := by
  rw [← stageNums_strip hu]
  rcases insert_inv h with ⟨_, rfl⟩ | ⟨f, n, _, rfl⟩ | ⟨n, _, _, rfl⟩
  · rfl
  · rw [stageNums_node]; simp [Kind.isNet]
  · rw [stageNums_node]; simp [Kind.isNet]

/-- `Unary` survives preparing. -/
theorem prepare_unary {p : Plan Row} {t id p' id'} (h : prepare keep p t id = .ok (p', id'))
    (hp : Every (fun _ => Unary) t p) : Every (fun _ => Unary) t p' := by
  refine prepare_every ?_ ?_ ?_ h hp
  · intro t k tc cs cs' _ hl h e
    have := h e
    simp only [Plan.children] at this ⊢
    omega
  · intro t k tc c hk _; rfl
  · intro t k tc c rest id c' c'' _ _ _ _ _ _ _; rfl

mutual
theorem prepare_nums : ∀ {p : Plan Row} {t id p' id'}, Every (fun _ => Unary) t p → prepare keep p t id = .ok (p', id') →
    id ≤ id' ∧ stageNums p' = List.range' id (id' - id)
      ∧ Every (fun _ x => x.kind.isNet = true → ∀ c ∈ x.children, ∀ n ∈ stageNums c, n < x.kind.num) t p'
  | .node k tc cs, t, id, p', id', hu, h => by
    obtain ⟨cs', id1, h0, l, h1, h2⟩ := prepare_inv h
    obtain ⟨u1, u2⟩ := every_node.mp hu
    obtain ⟨a1, a2, a3⟩ := prepareAll_nums (k := k) (t := t) 0 (fun i c hc => by simpa using u2 i c hc)
      (by simpa using h0)
    rcases prepareNode_inv h2 with ⟨hk, rfl, rfl⟩ | ⟨c', rest, rfl, hk, h3⟩
    · have hn : k.isNet = false := by
        rcases hk with hk | rfl
        · exact hk
        · cases hk : k.isNet with
          | false => rfl
          | true =>
            have := u1 (.inl hk)
            simp only [Plan.children] at this
            simp [this] at l
      refine ⟨a1, by rw [stageNums_node, a2]; simp [hn], every_node.mpr ⟨?_, ?_⟩⟩
      · intro e; simp only [Plan.kind] at e; rw [hn] at e; cases e
      · intro i c hc; simpa using a3 i c hc
    · have hl1 : rest = [] := by
        have := u1 (.inl hk)
        simp only [Plan.children] at this
        simpa [this] using l
      subst hl1
      have hc' := a3 0 c' rfl
      simp only [Nat.zero_add] at hc'
      obtain ⟨c0, a, b, e1, e2⟩ := h1 0 c' rfl
      have hun : Unary c' := prepare_unary e2 (u2 0 c0 e1) _ _ .root
      simp only [List.flatMap_cons, List.flatMap_nil, List.append_nil] at a2
      rcases h3 with ⟨_, ht, hkt, rfl, rfl⟩ | ⟨hne, c'', h3, rfl, rfl⟩
      · refine ⟨a1, a2, ?_⟩
        rw [childCount_net hk, hkt] at hc'
        rw [ht]; exact hc'
      · have hn' : (k.withStage id1).isNet = true := by rw [withStage_isNet]; exact hk
        have hnum := withStage_num hk id1
        have hs := stageNums_insert hun h3
        refine ⟨by omega, ?_, every_node.mpr ⟨?_, ?_⟩⟩
        · rw [stageNums_node]
          simp only [List.flatMap_cons, List.flatMap_nil, List.append_nil, hn', if_true, hnum, hs, a2]
          rw [show id1 + 1 - id = (id1 - id) + 1 by omega, List.range'_concat]
          simp; omega
        · intro _ c hc n hn
          simp only [Plan.children, List.mem_cons, List.not_mem_nil, or_false] at hc
          subst hc
          simp only [Plan.kind, hnum]
          rw [hs, a2, List.mem_range'_1] at hn
          omega
        · intro i x hx
          match i with
          | 0 =>
            simp at hx; subst hx
            rw [childCount_net hn', withStage_tasks]
            rw [childCount_net hk] at hc'
            rcases insert_inv h3 with ⟨_, rfl⟩ | ⟨f, n, _, rfl⟩ | ⟨n, _, _, rfl⟩
            · exact hc'.strip
            · refine every_node.mpr ⟨(fun e => by cases e), ?_⟩
              intro i x hx
              match i with
              | 0 => simp at hx; subst hx; exact hc'.strip
            · refine every_node.mpr ⟨(fun e => by cases e), ?_⟩
              intro i x hx
              match i with
              | 0 => simp at hx; subst hx; exact hc'.strip
theorem prepareAll_nums {k : Kind Row} {t : Nat} : ∀ {cs cs' : List (Plan Row)} (o : Nat) {id id'},
    (∀ (i : Nat) c, cs[i]? = some c → Every (fun _ => Unary) (childCount k t (o + i)) c) →
    prepareAll keep cs ((List.range cs.length).map fun i => childCount k t (o + i)) id = .ok (cs', id') →
    id ≤ id' ∧ cs'.flatMap stageNums = List.range' id (id' - id)
      ∧ ∀ (i : Nat) c', cs'[i]? = some c' →
        Every (fun _ x => x.kind.isNet = true → ∀ c ∈ x.children, ∀ n ∈ stageNums c, n < x.kind.num)
          (childCount k t (o + i)) c'
  | [], cs', o, id, id', _, h => by
    simp only [List.length_nil, List.range_zero, List.map_nil] at h
    rw [prepareAll] at h; cases h; simp
  | c :: cs, cs', o, id, id', hu, h => by
    rw [List.length_cons, List.range_succ_eq_map, List.map_cons, List.map_map] at h
    rw [prepareAll] at h
    obtain ⟨⟨c1, id1⟩, h1, h⟩ := bind_ok h
    obtain ⟨⟨cs1, id2⟩, h2, h⟩ := bind_ok h
    cases h
    obtain ⟨a1, a2, a3⟩ := prepare_nums (hu 0 c rfl) h1
    have h2' : prepareAll keep cs ((List.range cs.length).map fun i => childCount k t (o + 1 + i)) id1 = .ok (cs1, id') := by
      rw [← h2]
      congr 1
      apply List.map_congr_left
      intro i _
      simp only [Function.comp]
      congr 1
      omega
    obtain ⟨b1, b2, b3⟩ := prepareAll_nums (o + 1) (fun i x hx => by
      have := hu (i + 1) x (by simpa using hx)
      rwa [show o + (i + 1) = o + 1 + i by omega] at this) h2'
    refine ⟨by omega, ?_, ?_⟩
    · rw [List.flatMap_cons, a2, b2, show List.range' id1 (id' - id1) = List.range' (id + (id1 - id)) (id' - id1) by
        congr 1; omega, List.range'_append_1]
      congr 1
      omega
    · intro i x hx
      cases i with
      | zero => simp at hx; subst hx; exact a3
      | succ i =>
        have := b3 i x (by simpa using hx)
        rwa [show o + (i + 1) = o + 1 + i by omega]
end

theorem stageNums_reduceNode (k : Kind Row) (tc) (cs : List (Plan Row)) :
    stageNums (reduceNode k tc cs) = stageNums (.node k tc cs) := by
  unfold reduceNode
  split
  · simp [stageNums_node, fresh, Kind.isNet]
  · rfl

theorem stageNums_partialReduce : ∀ p : Plan Row, stageNums (partialReduce p) = stageNums p
  | .node k tc cs => by
    rw [partialReduce, partialReduceAll_eq, stageNums_reduceNode, stageNums_node, stageNums_node, List.flatMap_map]
    congr 1
    apply List.flatMap_congr
    intro c hc
    have : sizeOf c < sizeOf cs := List.sizeOf_lt_of_mem hc
    exact stageNums_partialReduce c
termination_by p => sizeOf p

/-- **C21** The stages of a planned plan are numbered 1, 2, 3, … without gaps or repetitions, and the stages feeding a
stage have smaller numbers than it. (All stages of a plan are given the same query id, a local variable of
`prepare_network_boundaries`; the id itself is not modelled.) -/
theorem C21_stage_numbers (he : EnvOk env) (hs : ScalesLeaves env) {p p' : Plan Row} (hu : Undistributed p)
    (hp : plan env p = .ok (some p')) :
    stageNums p' = List.range' 1 (stageNums p').length ∧ (stageNums p').Nodup
    ∧ ∀ t x, At 1 p' t x → x.kind.isNet = true → ∀ c ∈ x.children, ∀ n ∈ stageNums c, n < x.kind.num := by
  obtain ⟨p1, p2, p3, id, h1, h2, h3, _, rfl⟩ := plan_steps hp
  have hun : Every (fun _ => Unary) 1 p2 :=
    ((inject_shape (D := False) he hs False.elim (preparePlan_plain hu h1) False.elim h2).2 rfl).imp fun t x hx e => by
      rcases e with e | e
      · obtain ⟨c, hc⟩ := (hx.net e).1
        rw [hc]; rfl
      · exact hx.head e
  obtain ⟨n1, n2, n3⟩ := prepare_nums hun h3
  have hnum : stageNums (if env.partialReduce then partialReduce p3 else p3) = stageNums p3 := by
    split
    · exact stageNums_partialReduce p3
    · rfl
  rw [hnum]
  refine ⟨by rw [n2]; simp, by rw [n2]; exact List.nodup_range', ?_⟩
  split
  · refine partialReduce_every (P := fun _ x => x.kind.isNet = true → ∀ c ∈ x.children, ∀ n ∈ stageNums c, n < x.kind.num)
      (Q := fun _ x => x.kind.isNet = true → ∀ c ∈ x.children, ∀ n ∈ stageNums c, n < x.kind.num) ?_ ?_ n3
    · intro t k tc cs h
      have key : ∀ cs', reduceNode k tc (cs.map partialReduce) = .node k tc cs' →
          ∀ n ∈ cs'.flatMap stageNums, n ∈ cs.flatMap stageNums := by
        intro cs' e n hn
        have e2 := congrArg stageNums e
        rw [stageNums_reduceNode, stageNums_node, stageNums_node, List.flatMap_map] at e2
        have e3 := List.append_cancel_right e2
        rw [← e3] at hn
        simpa [stageNums_partialReduce] using hn
      obtain ⟨cs', e, l⟩ := reduceNode_shape k tc (cs.map partialReduce)
      rw [e]
      intro hk c hc n hn
      have := key cs' e n (List.mem_flatMap.mpr ⟨c, hc, hn⟩)
      obtain ⟨c0, hc0, hn0⟩ := List.mem_flatMap.mp this
      exact h hk c0 hc0 n hn0
    · intro t r x e; cases e
  · exact n3

/-- The same for boundaries placed by the user, or any other plan whose boundaries have a local stage: preparing
numbers the stages from `id` on. -/
theorem C21_prepare_numbers {p : Plan Row} {t id : Nat} {p' : Plan Row} {id' : Nat}
    (hu : ∀ t' x, At t p t' x → Unary x) (h : prepare keep p t id = .ok (p', id')) :
    stageNums p' = List.range' id (id' - id) := (prepare_nums hu h).2.1

/-! ### **C25** -/

theorem reduceNode_children (k : Kind Row) (tc) (cs : List (Plan Row)) :
    ∃ cs', reduceNode k tc cs = .node k tc cs' ∧ (cs' = cs ∨ ∃ h n o rt y r, k.isNet = true
      ∧ cs = [.node (.hashRepart h n o) rt [y]] ∧ cs' = [fresh (.op r none) [.node (.hashRepart h n o) rt [y]]]) := by
  unfold reduceNode
  split
  · rename_i h n o rt g r ot ys hk
    exact ⟨_, rfl, .inr ⟨h, n, o, rt, _, r, hk, rfl, rfl⟩⟩
  · exact ⟨_, rfl, .inl rfl⟩

/-- A boundary of a planned plan: like `PostNet`, after partial states may have been merged below shuffles. -/
structure PlannedNet (D : Prop) (t : Nat) (x : Plan Row) : Prop where
  shuffle : ∀ h p n i, x.kind = .shuffle h p n i → ∃ tc c, x = .node x.kind tc [c]
    ∧ ((∃ tc' y, c = .node (.hashRepart h (p * t) none) tc' [y])
      ∨ ∃ g r tc'' tc' y, c = .node (.op g r) tc'' [.node (.hashRepart h (p * t) none) tc' [y]])
  broadcast : ∀ p n i, x.kind = .netBroadcast p n i →
    ∃ tc b tc' y, x = .node x.kind tc [.node (.broadcast b) tc' [y]] ∧ 0 < y.parts ∧ y.parts * b = p * t
  coalesce : ∀ p n i, x.kind = .netCoalesce p n i → t = 1 ∧ ∃ m, p = m * n
    ∧ (D → ∃ tc c, x = .node x.kind tc [c] ∧ c.parts = m ∧ strip c = c)

theorem strip_noop {c : Plan Row} (h : c.kind.isHead = false) : strip c = c := by
  rcases strip_cases c with e | ⟨e, _⟩
  · exact e
  · rw [h] at e; cases e

theorem partialReduce_head {k : Kind Row} (hk : k.isNet = false) {tc cs} :
    partialReduce (.node k tc cs) = .node k tc (cs.map partialReduce) := by
  rw [partialReduce, partialReduceAll_eq]
  unfold reduceNode
  split
  · rename_i h _; rw [hk] at h; cases h
  · rfl

theorem PostNet.planned {D t} {x : Plan Row} (h : PostNet D t x) : PlannedNet D t x where
  shuffle f p n i e := by
    obtain ⟨tc, tc', y, e2⟩ := h.shuffle f p n i e
    exact ⟨tc, _, e2, .inl ⟨_, _, rfl⟩⟩
  broadcast := h.broadcast
  coalesce p n i e := by
    obtain ⟨h1, tc, c, h2, h3, h4⟩ := h.coalesce p n i e
    refine ⟨h1, _, h3, fun d => ⟨tc, _, h2, ?_, ?_⟩⟩
    · rw [strip_noop (h4 d)]
    · rw [strip_noop (h4 d)]; exact strip_noop (h4 d)

theorem plan_planned (he : EnvOk env) (hs : ScalesLeaves env) {D : Prop} (hD : D → ScalesToSources env) {p p' : Plan Row}
    (hu : Undistributed p) (hg : ∀ p1, D → preparePlan env p = .ok p1 → NotDealtAndGathered p1)
    (hp : plan env p = .ok (some p')) : Every (PlannedNet D) 1 p' := by
  obtain ⟨p1, p2, p3, id, h1, h2, h3, _, rfl⟩ := plan_steps hp
  have a := prepare_post h3 ((inject_shape he hs hD (preparePlan_plain hu h1)
    (fun d => ⟨hg p1 d h1, fun e => by cases e⟩) h2).2 rfl)
  split
  · refine partialReduce_every (P := PostNet D) (Q := PlannedNet D) ?_ ?_ a
    · intro t k tc cs h
      obtain ⟨cs', e, hcs⟩ := reduceNode_children k tc (cs.map partialReduce)
      rw [e]
      refine ⟨?_, ?_, ?_⟩
      · intro f p n i ek
        obtain ⟨tc1, tc2, y, e2⟩ := h.shuffle f p n i ek
        cases e2
        simp only [List.map_cons, List.map_nil, partialReduce_head (k := .hashRepart f (p * t) none) rfl] at hcs
        rcases hcs with rfl | ⟨f', n', o, rt, y', r, _, e3, rfl⟩
        · exact ⟨_, _, rfl, .inl ⟨_, _, rfl⟩⟩
        · cases e3
          exact ⟨_, _, rfl, .inr ⟨_, _, _, _, _, rfl⟩⟩
      · intro p n i ek
        obtain ⟨tc1, b, tc2, y, e2, e4, e5⟩ := h.broadcast p n i ek
        cases e2
        simp only [List.map_cons, List.map_nil, partialReduce_head (k := .broadcast b) rfl] at hcs
        rcases hcs with rfl | ⟨f', n', o, rt, y', r, _, e3, rfl⟩
        · exact ⟨_, _, _, _, rfl, by rw [partialReduce_parts]; exact e4, by rw [partialReduce_parts]; exact e5⟩
        · cases e3
      · intro p n i ek
        obtain ⟨ht, tc1, c, e2, e4, e5⟩ := h.coalesce p n i ek
        refine ⟨ht, _, e4, fun d => ?_⟩
        rw [strip_noop (e5 d)] at e2
        cases e2
        simp only [List.map_cons, List.map_nil] at hcs
        have hk : (partialReduce c).kind.isHead = false := by rw [partialReduce_kind]; exact e5 d
        rcases hcs with rfl | ⟨f', n', o, rt, y', r, _, e3, rfl⟩
        · exact ⟨_, _, rfl, partialReduce_parts c, strip_noop hk⟩
        · rw [List.singleton_inj.mp e3] at hk
          cases hk
    · intro t r x
      exact ⟨(fun _ _ _ _ e => by cases e), (fun _ _ _ e => by cases e), (fun _ _ _ e => by cases e)⟩
  · exact a.imp fun t x h => h.planned

theorem PlannedNet.builtFor {D : Prop} {t : Nat} {x : Plan Row} (h : PlannedNet D t x) : BuiltFor t x := by
  unfold BuiltFor
  split
  · rename_i f p n i e
    obtain ⟨tc, c, h1, h2⟩ := h.shuffle f p n i e
    rw [h1]; exact ⟨c, rfl, h2⟩
  · rename_i p n i e
    obtain ⟨tc, b, tc', y, h1, h2, h3⟩ := h.broadcast p n i e
    rw [h1]; exact ⟨b, tc', y, rfl, h2, h3⟩
  · rename_i p n i e
    obtain ⟨h1, m, h2, _⟩ := h.coalesce p n i e
    exact ⟨h1, Dvd.intro_left m h2.symm⟩
  · trivial

/-- **C25** In every planned plan, every boundary's input was built for exactly as many consumer tasks as run the
boundary, wherever it stands: in the head stage, in another stage, or in a branch of an isolated union. -/
theorem C25_built_for_its_consumers (he : EnvOk env) (hs : ScalesLeaves env) {p p' : Plan Row} (hu : Undistributed p)
    (hp : plan env p = .ok (some p')) {t : Nat} {x : Plan Row} (hx : At 1 p' t x) : BuiltFor t x :=
  (plan_planned (D := False) he hs False.elim hu (fun _ d => d.elim) hp t x hx).builtFor

/-- The same for any plan whose boundaries have a local stage, for example with boundaries placed by the user: preparing
it to be run by `T` tasks gives every shuffle and broadcast an input built for the tasks that run it. -/
theorem C25_prepare_builds_for_consumers {T id id' : Nat} {p p' : Plan Row} (hu : ∀ t x, At T p t x → Unary x)
    (h : prepare keep p T id = .ok (p', id')) {t : Nat} {x : Plan Row} (hx : At T p' t x) :
    (∀ f P n i, x.kind = .shuffle f P n i → ∃ tc y, x.children = [.node (.hashRepart f (P * t) none) tc [y]])
    ∧ ∀ P n i, x.kind = .netBroadcast P n i → ∃ tc y, x.children = [.node (.broadcast (P * t / y.parts)) tc [y]] := by
  refine prepare_every (P := fun _ => Unary) (Q := fun t x =>
    (∀ f P n i, x.kind = .shuffle f P n i → ∃ tc y, x.children = [.node (.hashRepart f (P * t) none) tc [y]])
    ∧ ∀ P n i, x.kind = .netBroadcast P n i → ∃ tc y, x.children = [.node (.broadcast (P * t / y.parts)) tc [y]])
    ?_ ?_ ?_ h hu t x hx
  · intro t k tc cs cs' hk l hP
    have hn : k.isNet = false := by
      rcases hk with hk | rfl
      · exact hk
      · cases hk : k.isNet with
        | false => rfl
        | true => have := hP (.inl hk); simp [Plan.children] at this; simp [this] at l
    exact ⟨fun f P n i e => (by rw [show k = _ from e] at hn; cases hn),
      fun P n i e => (by rw [show k = _ from e] at hn; cases hn)⟩
  · intro t k tc c hk
    exact ⟨fun f P n i e => (by rw [show k = _ from e] at hk; cases hk),
      fun P n i e => (by rw [show k = _ from e] at hk; cases hk)⟩
  · intro t k tc c rest id c' c'' hk _ _ _ _ hins
    cases k
    case shuffle f p n i =>
      cases hins
      exact ⟨fun f P n i e => (by cases e; exact ⟨_, _, rfl⟩), fun _ _ _ e => by cases e⟩
    case netBroadcast p n i =>
      rcases insert_inv hins with ⟨e, _⟩ | ⟨_, _, e, _⟩ | ⟨m, e, hpos, rfl⟩
      · cases e
      · cases e
      · cases e
        exact ⟨(fun _ _ _ _ e => by cases e), fun P n i e => (by cases e; exact ⟨_, _, rfl⟩)⟩
    case netCoalesce p n i => exact ⟨(fun _ _ _ _ e => by cases e), (fun _ _ _ e => by cases e)⟩
    all_goals cases hk

/-! ### **C05** -/

theorem fan_in_range {p n T i q : Nat} (hi : i < T) (hq : q < p) : ∀ r ∈ (FanExec.mk p n).execute ⟨i, T⟩ q,
    r.task < n ∧ r.lo ≤ r.partition ∧ r.partition < r.hi ∧ r.hi ≤ p * T := by
  intro r hr
  obtain ⟨h1, h2, h3, h4, _⟩ := (fan_pulls ⟨p, n⟩ T i q hi hq).2 r hr
  exact ⟨h1, h2, h3, h4⟩

theorem PlannedNet.requests {D : Prop} {t : Nat} {x : Plan Row} (h : PlannedNet D t x) (hn : x.kind.isNet = true)
    (hpos : 1 ≤ x.kind.tasks) (hc : (∀ P n i, x.kind ≠ .netCoalesce P n i) ∨ D)
    {i q : Nat} (hi : i < t) (hq : q < x.kind.netParts) :
    ∃ pulls c w, Tree.requests x.kind ⟨i, t⟩ q = .ok pulls ∧ x.children = [c] ∧ workerPlan x.kind t c = .ok w ∧
      ∀ r ∈ pulls, r.task < x.kind.tasks ∧ r.lo ≤ r.partition ∧ r.partition < r.hi ∧ r.hi ≤ w.parts := by
  cases hk : x.kind with
  | shuffle f P n j =>
    obtain ⟨tc, c, h1, h2⟩ := h.shuffle f P n j hk
    rw [hk] at h1 hq
    rw [h1]
    exact ⟨_, c, _, rfl, rfl, rfl, fun r hr => fan_in_range hi hq r hr⟩
  | netBroadcast P n j =>
    obtain ⟨tc, b, tc', y, h1, h2, h3⟩ := h.broadcast P n j hk
    rw [hk] at h1 hq
    rw [h1]
    refine ⟨_, _, .node (.broadcast (P * t / y.parts)) tc' [y], rfl, rfl, ?_, ?_⟩
    · show (do
        let b ← BroadcastExec.ofHead y.parts (P * t)
        Except.ok (Plan.node (.broadcast b.consumerTasks) tc' [y])) = _
      unfold BroadcastExec.ofHead
      rw [if_neg (by omega)]
      rfl
    · intro r hr
      obtain ⟨a1, a2, a3, a4⟩ := fan_in_range hi hq r hr
      refine ⟨a1, a2, a3, ?_⟩
      show r.hi ≤ y.parts * (P * t / y.parts)
      rw [← h3, Nat.mul_div_cancel_left _ h2, h3]
      exact a4
  | netCoalesce P n j =>
    obtain ⟨ht, m, h2, h3⟩ := h.coalesce P n j hk
    obtain ⟨tc, c, h4, h5, h6⟩ := h3 (hc.resolve_left fun e => e P n j hk)
    rw [hk] at h4 hq hpos
    rw [h4]
    subst ht
    have hi0 : i = 0 := by omega
    subst hi0
    simp only [Kind.netParts] at hq
    simp only [Kind.tasks] at hpos
    have hm : 0 < m := by
      rcases Nat.eq_zero_or_pos m with rfl | e
      · omega
      · exact e
    have hmax : max (divCeil n 1) 1 = n := by simp [divCeil]; omega
    have he := coalesce_execute_eq m n 1 0 (q / m) (q % m) (by omega) (Nat.mod_lt _ hm)
    rw [hmax, ← h2, Nat.div_add_mod] at he
    refine ⟨_, c, strip c, he, rfl, rfl, ?_⟩
    intro r hr
    split at hr
    · rename_i ho
      simp only [List.mem_cons, List.not_mem_nil, or_false] at hr
      subst hr
      rw [h6, h5]
      refine ⟨?_, Nat.zero_le _, Nat.mod_lt _ hm, Nat.le_refl _⟩
      simp [taskGroup, Nat.mod_one] at ho ⊢
      exact ho
    · cases hr
  | _ => rw [hk] at hn; cases hn

/-- **C05** In every planned plan: whenever one of the `t` tasks that run a boundary asks producer task `r.task` for
the partitions `r.lo..r.hi`, that task exists, and the plan its worker runs (with the head the boundary asks for) has
all these partitions; the partition to be read is one of them.

Missing (`hc`): coalesces above a `RepartitionExec` that is not a hash repartitioning, see
`C05_round_robin_below_coalesce_false`. -/
theorem C05_requests_exist_partial (he : EnvOk env) (hs : ScalesLeaves env) {p p' : Plan Row} (hu : Undistributed p)
    (hp : plan env p = .ok (some p')) {t : Nat} {x : Plan Row} (hx : At 1 p' t x) (hn : x.kind.isNet = true)
    (hc : (∀ P n i, x.kind ≠ .netCoalesce P n i)
      ∨ (ScalesToSources env ∧ NotDealtAndGathered p ∧ ∀ n deal, p.kind ≠ .otherRepart n deal))
    {i q : Nat} (hi : i < t) (hq : q < x.kind.netParts) :
    ∃ pulls c w, requests x.kind ⟨i, t⟩ q = .ok pulls ∧ x.children = [c] ∧ workerPlan x.kind t c = .ok w ∧
      ∀ r ∈ pulls, r.task < x.kind.tasks ∧ r.lo ≤ r.partition ∧ r.partition < r.hi ∧ r.hi ≤ w.parts :=
  (plan_planned (D := ScalesToSources env ∧ NotDealtAndGathered p ∧ ∀ n deal, p.kind ≠ .otherRepart n deal)
    he hs (fun d => d.1) hu (fun p1 d h1 => preparePlan_notDealt d.2.1 d.2.2 h1) hp t x hx).requests hn
    (C20_stage_task_counts he hs hu hp hx hn).1 hc hi hq

/-! ### **C06** -/

/-- **C06** Installing a head on a plan that already has it gives the same plan: always for the heads of shuffles and
broadcasts, and for `ProducerHead::None` (a coalesce) if the plan left after taking a head off has no head itself
(see `C06_two_repartitionings_false` for the other case). -/
theorem C06_insert_idempotent_partial {hd : Head Row} {p p1 : Plan Row} (h : hd.insert p = .ok p1)
    (hn : (∃ f n, hd = .repartition f n) ∨ (∃ n, hd = .broadcast n) ∨ p1.kind.isHead = false ∨ p1.children = []) :
    hd.insert p1 = .ok p1 := by
  rcases insert_inv h with ⟨rfl, rfl⟩ | ⟨f, n, rfl, rfl⟩ | ⟨n, rfl, hpos, rfl⟩
  · have hs : strip (strip p) = strip p := by
      rcases hn with ⟨_, _, e⟩ | ⟨_, e⟩ | e | e
      · cases e
      · cases e
      · exact strip_noop e
      · rcases strip_cases (strip p) with e' | ⟨_, x, rest, e', _⟩
        · exact e'
        · rw [e] at e'; cases e'
    show Except.ok (strip (strip p)) = _
    rw [hs]
  · rfl
  · show (do
      let b ← BroadcastExec.ofHead (strip p).parts n
      Except.ok (Plan.node (.broadcast b.consumerTasks) p.tc [strip p])) = _
    unfold BroadcastExec.ofHead
    rw [if_neg hpos]
    rfl

/-- Installing the head of a shuffle with one consumer count after that of another replaces it: the plan only depends
on the last one. -/
theorem C06_insert_replaces {f g : Row → Nat} {m n : Nat} {p p1 p2 : Plan Row}
    (h1 : (Head.repartition f m).insert p = .ok p1) (h2 : (Head.repartition g n).insert p1 = .ok p2) :
    (Head.repartition g n).insert p = .ok p2 := by
  cases h1; cases h2; rfl

/-- **C06 is false** for a coalesce over two repartitionings: the coordinator takes the first off when the boundary is
prepared, the worker the second when it runs the plan. -/
theorem C06_two_repartitionings_false : ∃ p p1 p2 : Plan Nat, Head.insert .none p = .ok p1 ∧ Head.insert .none p1 = .ok p2
    ∧ p1.parts = 2 ∧ p2.parts = 3 :=
  ⟨fresh (.hashRepart id 1 none) [fresh (.hashRepart id 2 none) [fresh (.leaf [[], [], []]) []]], _, _, rfl, rfl, rfl, rfl⟩

/-- Installing the head of a broadcast on a scan with two partitions, twice. -/
example : (Head.broadcast 6).insert (fresh (.leaf [[1], [2]]) []) = .ok (fresh (.broadcast 3) [fresh (.leaf [[1], [2]]) []])
    ∧ (Head.broadcast 6).insert (fresh (.broadcast 3) [fresh (.leaf [[1], [2]]) []])
      = .ok (fresh (.broadcast 3) [fresh (.leaf [[1], [2]]) []]) := ⟨rfl, rfl⟩

/-! ### **C24** -/

/-- The node applies the operator `g`. -/
def Kind.Applies (k : Kind Row) (g : Op Row) : Prop := (∃ r, k = .op g r) ∨ k = .coalesce (some g) ∨ ∃ le, k = .spm (some g) le

/-- Running the plan on a worker or on the coordinator makes no difference: what a `DistributedLeafExec` runs in its
only task is its original plan, isolated unions have an assignment with proper task contexts, and operators that
choose choose the same. -/
def Local (x : Plan Row) : Prop :=
  (∀ o vs, x.kind = .distLeaf o vs → ∀ q, (vs.getD 0 []).getD q [] = o.getD q [])
  ∧ (∀ ws m, x.kind = .ciu ws m → ∀ es ∈ m, ∀ e ∈ es, e.2.index < e.2.count)
  ∧ ∀ g, x.kind.Applies g → ∀ ctx q as, g.exec true ctx q as = g.exec false ctx q as

theorem local_exec : ∀ {p : Plan Row} {T}, Every (fun _ => Local) T p → ∀ (ctx : TaskCtx), ctx.index < ctx.count → ∀ q,
    (run p).exec true ctx q = (run p).exec false ctx q
  | .node k tc cs, T, h, ctx, hctx, q => by
    obtain ⟨h1, h2⟩ := every_node.mp h
    have ih : ∀ c ∈ cs, ∀ ctx : TaskCtx, ctx.index < ctx.count → ∀ q, (run c).exec true ctx q = (run c).exec false ctx q := by
      intro c hc ctx hctx q
      obtain ⟨i, hi, rfl⟩ := List.getElem_of_mem hc
      have : sizeOf cs[i] < sizeOf cs := List.sizeOf_lt_of_mem hc
      exact local_exec (h2 i _ (by simp)) ctx hctx q
    have ihg : ∀ i, ∀ ctx : TaskCtx, ctx.index < ctx.count → ∀ q,
        ((cs.map runBoth).getD i (.none, .none)).1.exec true ctx q = ((cs.map runBoth).getD i (.none, .none)).1.exec false ctx q := by
      intro i ctx hctx q
      rw [List.getD_eq_getElem?_getD, List.getElem?_map]
      cases hi : cs[i]? with
      | none => rfl
      | some c => exact ih c (List.mem_of_getElem? hi) ctx hctx q
    have ihr : ∀ i, ∀ ctx : TaskCtx, ctx.index < ctx.count →
        ((cs.map runBoth).getD i (.none, .none)).1.rows true ctx = ((cs.map runBoth).getD i (.none, .none)).1.rows false ctx := by
      intro i ctx hctx
      unfold Ran.rows
      exact flatMap_congr' fun q _ => ihg i ctx hctx q
    rw [run_node]
    cases k with
    | distLeaf o vs =>
      simp only [runKind, Bool.true_or, if_true, Bool.false_or]
      split
      · rfl
      · rename_i hc
        have hc1 : ctx.count = 1 := by simpa using hc
        have : ctx.index = 0 := by omega
        rw [this]
        exact h1.1 o vs rfl q
    | op g r =>
      simp only [runKind]
      rw [h1.2.2 g (.inl ⟨r, rfl⟩)]
      congr 1
      apply List.map_congr_left
      intro c hc
      obtain ⟨c0, hc0, rfl⟩ := List.mem_map.mp hc
      exact ih c0 hc0 ctx hctx q
    | join m s =>
      cases m
      case partitioned => simp only [runKind, ihg _ _ hctx]
      all_goals simp only [runKind, collectExec, ihg _ _ hctx, ihr _ _ hctx]
    | union =>
      simp only [runKind]
      have : ∀ (l : List (Plan Row)), (∀ c ∈ l, c ∈ cs) → ∀ q, unionExec true ctx ((l.map runBoth).map (·.1)) q
          = unionExec false ctx ((l.map runBoth).map (·.1)) q := by
        intro l
        induction l with
        | nil => intros; rfl
        | cons c l ihl =>
          intro hl q
          simp only [List.map_cons, unionExec]
          rw [ihl (fun c hc => hl c (by simp [hc]))]
          have := ih c (hl c (by simp)) ctx hctx q
          change (if _ then (run c).exec true ctx q else _) = (if _ then (run c).exec false ctx q else _)
          rw [this]
      exact this cs (fun _ h => h) q
    | ciu ws m =>
      simp only [runKind, ciuExec]
      split
      · rename_i r hr
        rw [List.getD_eq_getElem?_getD, List.map_map, List.getElem?_map]
        cases hi : cs[r.child]? with
        | none => rfl
        | some c =>
          refine ih c (List.mem_of_getElem? hi) r.ctx ?_ r.partition
          have key : ∀ (es : List Union.Entry) (P : List Nat) (q : Nat), Union.execIn P es q = .ok (some r) →
              ∃ e ∈ es, e.2 = r.ctx := by
            intro es P
            induction es with
            | nil => intro q h; cases h
            | cons e es ihe =>
              intro q h
              unfold Union.execIn at h
              split at h
              · cases h
              · split at h
                · cases h; exact ⟨_, by simp, rfl⟩
                · obtain ⟨e', h1, h2⟩ := ihe _ h
                  exact ⟨e', by simp [h1], h2⟩
          obtain ⟨e, he, hee⟩ := key _ _ _ hr
          rw [← hee]
          rw [List.getD_eq_getElem?_getD] at he
          cases hm : m[ctx.index]? with
          | none => rw [hm] at he; cases he
          | some es =>
            rw [hm] at he
            exact h1.2.1 ws m rfl es (List.mem_of_getElem? hm) e he
      · rfl
    | otherRepart n deal =>
      simp only [runKind]
      congr 1
      exact List.map_congr_left fun p _ => ihg 0 ctx hctx p
    | coalesce f =>
      simp only [runKind, ihr _ _ hctx]
      cases f with
      | none => rfl
      | some g =>
        simp only [takeFetch]
        rw [h1.2.2 g (.inr (.inl rfl))]
    | spm f =>
      simp only [runKind, ihr _ _ hctx]
      cases f with
      | none => rfl
      | some g =>
        simp only [takeFetch]
        rw [h1.2.2 g (.inr (.inr ⟨_, rfl⟩))]
    | _ => simp only [runKind, ihg _ _ hctx, ihr _ _ hctx]
termination_by p _ => sizeOf p

/-- **C24** A boundary with one producer task, read by one consumer task, returns in each of its partitions exactly what
its input would return in that partition if the consumer task ran it itself. -/
theorem C24_elision_keeps_rows {k : Kind Row} {tc : TaskCount} {c : Plan Row} {T : Nat} (hl : ∀ t x, At T c t x → Local x)
    (hk : k.isNet = true) (ht : k.tasks = 1)
    (hin : InputOf k c)
    {w : Bool} {q : Nat} (hq : q < k.netParts) :
    (run (.node k tc [c])).exec w ⟨0, 1⟩ q = (run c).exec w ⟨0, 1⟩ q
    ∧ (run (.node k tc [c])).parts = (run c).parts := by
  have hw : (run c).exec w ⟨0, 1⟩ q = (run c).exec true ⟨0, 1⟩ q := by
    cases w with
    | true => rfl
    | false => exact (local_exec (T := T) hl _ (by decide) q).symm
  rw [hw, run_node]
  simp only [List.map_cons, List.map_nil]
  cases k with
  | shuffle h p n i =>
    obtain ⟨o, tc', y, rfl⟩ := hin
    simp only [Kind.tasks] at ht
    subst ht
    refine ⟨?_, rfl⟩
    show shuffleExec h p 1 (runBoth (.node (.hashRepart h p o) tc' [y])).2 ⟨0, 1⟩ q = _
    rw [runBoth_snd, run_node]
    simp [shuffleExec, FanExec.execute, FanExec.headPartitions, runKind, Plan.kind, Plan.children, Kind.isHead, List.range_succ]
  | netBroadcast p n i =>
    obtain ⟨hp, b, tc', y, rfl⟩ := hin
    simp only [Kind.tasks] at ht
    subst ht
    refine ⟨?_, hp.symm⟩
    show netBroadcastExec p 1 (runBoth (.node (.broadcast b) tc' [y])).2 ⟨0, 1⟩ q = _
    rw [runBoth_snd, run_node]
    simp [netBroadcastExec, FanExec.execute, runKind, Plan.kind, Plan.children, Kind.isHead, List.range_succ]
  | netCoalesce p n i =>
    obtain ⟨hh, hp⟩ := hin
    simp only [Kind.tasks] at ht
    subst ht
    simp only [Kind.netParts] at hq hp
    refine ⟨?_, hp.symm⟩
    show netCoalesceExec p 1 (runBoth c).2 ⟨0, 1⟩ q = _
    rw [runBoth_snd, hh]
    unfold netCoalesceExec
    have he := coalesce_execute_eq p 1 1 0 0 q (by omega) hq
    simp only [Nat.mul_zero, Nat.zero_add] at he
    have h1 : p * max (divCeil 1 1) 1 = p := by simp [divCeil]
    rw [h1] at he
    rw [he]
    simp [taskGroup]
  | _ => cases hk

/-! ### Instances -/

/-- `Undistributed`, decidably. -/
def plainB : Plan Row → Bool
  | .node k _ cs => !k.isNet && !(cs.isEmpty && k.isJoin)
      && (!k.isHead || cs.length == 1) && plainAllB cs
where plainAllB : List (Plan Row) → Bool
  | [] => true
  | c :: cs => plainB c && plainAllB cs

theorem plainAllB_eq (cs : List (Plan Row)) : plainB.plainAllB cs = cs.all plainB := by
  induction cs with
  | nil => rfl
  | cons c cs ih => rw [plainB.plainAllB, ih]; rfl

theorem plainB_every {T : Nat} : ∀ {p : Plan Row}, plainB p = true → Every (fun _ => Plain) T p
  | .node k tc cs, h => by
    rw [plainB, plainAllB_eq] at h
    simp only [Bool.and_eq_true, Bool.not_eq_true', Bool.or_eq_true, beq_iff_eq] at h
    obtain ⟨⟨⟨h1, h2⟩, h3⟩, h4⟩ := h
    refine every_node.mpr ⟨⟨h1, ?_, ?_⟩, ?_⟩
    · rintro e m s rfl'
      simp only [Plan.children, Plan.kind] at e rfl'
      subst e; subst rfl'
      simp [Kind.isJoin] at h2
    · intro e
      simp only [Plan.children, Plan.kind] at e ⊢
      rcases h3 with h3 | h3
      · rw [e] at h3; cases h3
      · exact h3
    · intro i c hc
      have : sizeOf c < sizeOf cs := List.sizeOf_lt_of_mem (List.mem_of_getElem? hc)
      exact plainB_every (List.all_eq_true.mp h4 c (List.mem_of_getElem? hc))
termination_by p => sizeOf p

theorem undistributed_of {p : Plan Row} (h : plainB p = true) : Undistributed p := plainB_every h

namespace Demo

theorem sess_scales : ScalesLeaves sess := by
  intro p T p' h t x hx
  unfold sess at h
  simp only at h
  split at h
  · cases h
    cases hx with
    | root => exact ⟨rfl, (by rintro _ _ ⟨⟩), (fun e => by cases e), (by rintro _ _ ⟨⟩)⟩
    | child hc _ => simp at hc
  · cases h

/-- A union of two queries, one of which has a join that keeps the unmatched build rows. -/
def leftJoin : Plan (Nat × Nat) :=
  fresh .union [input, fresh (.join .nested (onFirst .full)) [fresh (.coalesce none) [small], big]]

/-- The plan made of a query, or the query. -/
def plannedOr (p : Plan (Nat × Nat)) : Plan (Nat × Nat) :=
  match plan sess p with
  | .ok (some p') => p'
  | _ => p

end Demo

/-- Round robin into more partitions than the input has, then gathered. -/
def Demo.dealtMore : Plan (Nat × Nat) :=
  fresh (.coalesce none) [fresh (Demo.roundRobin 4) [fresh (.leaf [[(1, 1)], [(2, 2)]]) []]]

/-- What the first task below the root of a planned plan asks of its producers, and how many partitions they have. -/
def Demo.asked (p : Plan (Nat × Nat)) : Option (List Pull × Nat) :=
  match plan Demo.sess p with
  | .ok (some (.node _ _ [.node k _ [c]])) => match requests k ⟨0, 1⟩ 0, workerPlan k 1 c with
    | .ok pulls, .ok w => some (pulls, w.parts)
    | _, _ => none
  | _ => none

/-- **C05 is false** for a coalesce directly above a `RepartitionExec` that is not a hash repartitioning: the boundary
counts the partitions of the repartitioning, but the worker runs the plan without it (`ProducerHead::None` takes it
off), which here has two partitions; the consumer asks for four. -/
theorem C05_round_robin_below_coalesce_false : Demo.asked Demo.dealtMore = some ([⟨0, 0, 0, 4⟩], 2) := by decide +kernel

/-- The theorems apply: a plan of four stages, with an unsafe join in a branch of an isolated union. -/
example : plan Demo.sess Demo.leftJoin = .ok (some (Demo.plannedOr Demo.leftJoin))
    ∧ stageNums (Demo.plannedOr Demo.leftJoin) = [1, 2, 3]
    ∧ Undistributed Demo.leftJoin ∧ EnvOk Demo.sess ∧ ScalesLeaves Demo.sess := by
  obtain ⟨p', hp⟩ := planned_of (env := Demo.sess) (p := Demo.leftJoin) (by decide +kernel)
  refine ⟨?_, by decide +kernel, undistributed_of (by decide +kernel), Demo.sess_ok, Demo.sess_scales⟩
  unfold Demo.plannedOr
  rw [hp]

theorem Demo.sess_sources : ScalesToSources Demo.sess := by
  intro p T p' h
  unfold Demo.sess at h
  simp only at h
  split at h
  · cases h; rfl
  · cases h

/-- C05 applies to a query with a join: the head stage asks each of three tasks for one partition of two. -/
example : Demo.asked Demo.input = some ([⟨0, 0, 0, 3⟩], 3) ∧ ScalesToSources Demo.sess
    ∧ NotDealtAndGathered Demo.input ∧ Undistributed Demo.input := by
  refine ⟨by decide +kernel, Demo.sess_sources, ?_, undistributed_of (by decide +kernel)⟩
  simp [Demo.input, fresh, notDealt_node, Demo.small, Demo.big, Kind.deals, Plan.kind]

/-- C24 applies to the shuffle of a scan: the third partition of the shuffle. -/
example : (run (.node (.shuffle Prod.fst 3 1 7) (.desired 1) [fresh (.hashRepart Prod.fst 3 none) [Demo.big]])).exec true ⟨0, 1⟩ 2
    = [(2, 2), (2, 5)] := by
  rw [(C24_elision_keeps_rows (k := .shuffle Prod.fst 3 1 7) (c := fresh (.hashRepart Prod.fst 3 none) [Demo.big]) (T := 1) (fun t x hx => ?_) rfl rfl ⟨_, _, _, rfl⟩ (by decide)).1]
  · decide
  · have : Every (fun _ => Local) 1 (fresh (.hashRepart Prod.fst 3 none) [Demo.big]) := by
      refine every_node.mpr ⟨⟨(fun _ _ e => by cases e), (fun _ _ e => by cases e), by rintro g (⟨_, e⟩ | e | ⟨_, e⟩) <;> cases e⟩, fun i c hc => ?_⟩
      match i with
      | 0 =>
        simp at hc; subst hc
        exact every_node.mpr ⟨⟨(fun _ _ e => by cases e), (fun _ _ e => by cases e), by rintro g (⟨_, e⟩ | e | ⟨_, e⟩) <;> cases e⟩, fun i c hc => by simp at hc⟩
    exact this t x hx

end DD.Tree
