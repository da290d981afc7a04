/-
**C08**, **C11**: a distributed query returns what the plan returns on a single node.
-/
import Verif.Lemmas.PlanPasses
import Verif.Lemmas.Aggregate

namespace DD.Tree

variable {Row : Type} {env : Env Row}

/-- **C08** What a plan returns on a single node is one of its answers. -/
theorem C08_single_node_is_an_answer {p : Plan Row} {J : SInfo Row} (h : Src env .pre p J) (hE : J.eqv = .perm)
    (hrep : J.rep = false) : ∃ d, Answer p d ∧ (singleNode p).Perm d := by
  obtain ⟨P, l, _⟩ := h.single rfl
  rw [hrep] at l
  obtain ⟨_, d, hd, e⟩ := l.rows_one false
  rw [hE] at e
  exact ⟨d, hd, e⟩

/-- **C08** For every plan the planner is given and accepts (`Src`), every session (`EnvOk`: any task count wishes,
any scale-up of leaves that keeps their rows, any worker count, all planner switches), if the plan is
distributed, then the coordinator's head stage has one partition and its rows are, as a multiset, one of the answers the
original plan may return. Operators may choose (`LIMIT`, ties of `ORDER BY ... LIMIT`), and may choose differently in every
task and partition.

User-placed boundaries: `C08_user_boundaries_partial`. Roots that are not gathered (`RootOk`): `C08_ungathered_root_partial`.
Missing for the full claim: the cases of `Src` shown to be false below. -/
theorem C08_distributed_is_an_answer_partial (he : EnvOk env) {p p' : Plan Row} {J : SInfo Row}
    (h : Src env .pre p J) (hE : J.eqv = .perm) (hrep : J.rep = false) (hroot : RootOk env p J)
    (hp : plan env p = .ok (some p')) : p'.parts = 1 ∧ ∃ d, Answer p d ∧ (distributed p').Perm d := by
  obtain ⟨_, l, e⟩ := plan_src he h hrep hroot hp
  obtain ⟨h1, d, hd, e1⟩ := l.distributed
  obtain ⟨d', hd', e2⟩ := e d hd
  rw [hE] at e1 e2
  exact ⟨h1, d', hd', List.Perm.trans e1 e2⟩

/-- **C08** A query that has only one answer returns, distributed, the rows it returns on a single node. Queries without
operators that choose are such queries, see `Det.oneAnswer`. Missing: as above. -/
theorem C08_distributed_eq_single_node_partial (he : EnvOk env) {p p' : Plan Row} {J : SInfo Row}
    (h : Src env .pre p J) (hE : J.eqv = .perm) (hrep : J.rep = false) (hroot : RootOk env p J) (hone : OneAnswer p)
    (hp : plan env p = .ok (some p')) : p'.parts = 1 ∧ (distributed p').Perm (singleNode p) := by
  obtain ⟨h1, d, hd, e⟩ := C08_distributed_is_an_answer_partial he h hE hrep hroot hp
  obtain ⟨d', hd', e'⟩ := C08_single_node_is_an_answer h hE hrep
  exact ⟨h1, (e.trans (hone d d' hd hd')).trans e'.symm⟩

/-! ### **C11** -/

section
variable {K S : Type} [DecidableEq K] (A : Agg Row K S)

/-- DataFusion's two-step aggregation of a plan: partial aggregation, hash repartitioning on the key, final
aggregation. -/
def twoStep (hk : K → Nat) (n : Nat) (c : Plan Row) : Plan Row :=
  fresh A.finalOp [fresh (.hashRepart (fun r => hk (A.key r)) n none) [fresh A.partialOp [c]]]

theorem twoStep_src {ph : Phase} {c : Plan Row} {d one ga} (hk : K → Nat) {n : Nat} (hn : 0 < n)
    (h : Src env ph c ⟨d, one, false, .perm, ga⟩) : Src env ph (twoStep A hk n c) ⟨none, false, false, .perm, false⟩ := by
  refine .opKeyed (P := n) (A.final_keyed hk) (by rintro r ⟨⟩) (by rintro _ _ ⟨⟩) (by simp) rfl rfl
    (gs := [false]) rfl (by simp) ?_
  intro i c h E b e1 e2 e3 e4
  match i with
  | 0 =>
    simp at e1 e2 e3 e4
    subst e1; subst e2; subst e3; subst e4
    exact .hashRepart hn (by simp) (.opLocal A.partial_hom A.partial_reduceOk (by rintro _ _ ⟨⟩) (by assumption))

theorem answer_twoStep (hk : K → Nat) (n : Nat) {c : Plan Row} {d : List Row} (h : Answer (twoStep A hk n c) d) :
    ∃ a, Answer c a ∧ d = A.finalAgg (A.partialAgg a) := by
  simp only [twoStep, fresh] at h
  obtain ⟨x, hx, e⟩ := answer_one.mp h
  rw [answer_pass (fun _ _ => Iff.rfl)] at hx
  obtain ⟨y, hy, e'⟩ := answer_one.mp hx
  replace e : d = A.finalAgg x := e
  replace e' : x = A.partialAgg y := e'
  exact ⟨y, hy, by rw [e, e']⟩

/-- **C11** A distributed two-step aggregation returns the aggregation of all rows its input may return at once, whether or
not partial states are merged again before the network: for every mergeable aggregate, input plan, hash
function and session. -/
theorem C11_two_step_aggregation_of_an_answer (he : EnvOk env) (hk : K → Nat) {n : Nat} (hn : 1 < n) {c p' : Plan Row}
    {d one ga} (h : Src env .pre c ⟨d, one, false, .perm, ga⟩) (hp : plan env (twoStep A hk n c) = .ok (some p')) :
    ∃ a, Answer c a ∧ (distributed p').Perm (A.single a) := by
  have hs := twoStep_src A hk (Nat.lt_of_succ_lt hn) h
  have hroot : RootOk env (twoStep A hk n c) ⟨none, false, false, .perm, false⟩ := by
    refine .inr fun p1 h1 => ?_
    obtain ⟨cs, l, hc, e⟩ := normalize_inv h1
    obtain ⟨c1, rfl⟩ := one_of_length (by simpa using l)
    rw [show A.finalOp = .op _ none from rfl, normalizeNode_other rfl] at e
    cases e
    obtain ⟨c0, e1, e2⟩ := hc 0 c1 rfl
    simp at e1; subst e1
    refine ⟨?_, rfl⟩
    have := normalize_same e2 (k := .hashRepart (fun r => hk (A.key r)) n none) rfl rfl
    cases c1 with
    | node k tc cs =>
      cases this
      exact hn
  obtain ⟨x, hx, e⟩ := (C08_distributed_is_an_answer_partial he hs rfl rfl hroot hp).2
  obtain ⟨a, ha, rfl⟩ := answer_twoStep A hk n hx
  exact ⟨a, ha, e.trans (A.final_partial a)⟩

/-- **C11** If the input has only one answer: the aggregation of what it returns on a single node. -/
theorem C11_two_step_aggregation (he : EnvOk env) (hk : K → Nat) {n : Nat} (hn : 1 < n) {c p' : Plan Row} {d one ga}
    (h : Src env .pre c ⟨d, one, false, .perm, ga⟩) (hone : OneAnswer c) (hp : plan env (twoStep A hk n c) = .ok (some p')) :
    (distributed p').Perm (A.single (singleNode c)) := by
  obtain ⟨a, ha, e⟩ := C11_two_step_aggregation_of_an_answer A he hk hn h hp
  obtain ⟨b, hb, e'⟩ := C08_single_node_is_an_answer h rfl rfl
  exact e.trans (A.groups_congr _ fun k => A.total_perm _ k ((hone a b ha hb).trans e'.symm))

/-- Likewise without `GROUP BY`: partial aggregation, gathering, final aggregation. -/
def twoStepGlobal {S : Type} (A : GlobalAgg Row S) (c : Plan Row) : Plan Row :=
  fresh A.finalOp [fresh (.coalesce none) [fresh A.partialOp [c]]]

theorem twoStepGlobal_src {S : Type} (A : GlobalAgg Row S) {ph : Phase} {c : Plan Row} {d one ga}
    (h : Src env ph c ⟨d, one, false, .perm, ga⟩) : Src env ph (twoStepGlobal A c) ⟨none, true, false, .perm, true⟩ := by
  refine .opSingle A.final_whole (by rintro r ⟨⟩) (by simp) rfl (gs := [true]) rfl (by simp) ?_
  intro i c E b e1 e2 e3
  match i with
  | 0 =>
    simp at e1 e2 e3
    subst e1; subst e2; subst e3
    refine .gather (.inl rfl) ?_ (fun _ => ⟨?_, ?_⟩) (by simp)
      (.opLocal (d' := none) A.partial_hom A.partial_reduceOk (by rintro _ _ ⟨⟩) (by assumption)) <;>
      · intros; exact fun e => by cases e

/-- **C11** An aggregate without `GROUP BY`. -/
theorem C11_two_step_global_aggregation_of_an_answer {S : Type} (A : GlobalAgg Row S) (he : EnvOk env) {c p' : Plan Row}
    {d one ga} (h : Src env .pre c ⟨d, one, false, .perm, ga⟩) (hp : plan env (twoStepGlobal A c) = .ok (some p')) :
    ∃ a, Answer c a ∧ distributed p' = A.single a := by
  obtain ⟨x, hx, e⟩ := (C08_distributed_is_an_answer_partial he (twoStepGlobal_src A h) rfl rfl (.inl ⟨rfl, rfl⟩) hp).2
  simp only [twoStepGlobal, fresh] at hx
  obtain ⟨y, hy, e1⟩ := answer_one.mp hx
  rw [answer_pass (fun _ _ => Iff.rfl)] at hy
  obtain ⟨a, ha, e2⟩ := answer_one.mp hy
  replace e1 : x = A.finalAgg y := e1
  replace e2 : y = A.partialAgg a := e2
  subst e1; subst e2
  rw [A.final_partial] at e
  exact ⟨a, ha, List.perm_singleton.mp e⟩

/-- **C11** If the input has only one answer. -/
theorem C11_two_step_global_aggregation {S : Type} (A : GlobalAgg Row S) (he : EnvOk env) {c p' : Plan Row} {d one ga}
    (h : Src env .pre c ⟨d, one, false, .perm, ga⟩) (hone : OneAnswer c) (hp : plan env (twoStepGlobal A c) = .ok (some p')) :
    distributed p' = A.single (singleNode c) := by
  obtain ⟨a, ha, e⟩ := C11_two_step_global_aggregation_of_an_answer A he h hp
  obtain ⟨b, hb, e'⟩ := C08_single_node_is_an_answer h rfl rfl
  rw [e]
  show [_] = [_]
  rw [A.total_perm A.lift ((hone a b ha hb).trans e'.symm)]

end

/-! ### A session and a query they apply to

Rows are pairs of numbers. Every leaf wishes for three tasks; a leaf is scaled up by giving every task the rows
whose first component is its number modulo the task count. -/

/-- Planning succeeds and distributes the query. -/
def planned (env : Env Row) (p : Plan Row) : Bool :=
  match plan env p with
  | .ok (some _) => true
  | _ => false

theorem planned_of {p : Plan Row} (h : planned env p = true) : ∃ p', plan env p = .ok (some p') := by
  unfold planned at h
  split at h
  · exact ⟨_, by assumption⟩
  · cases h

namespace Demo

def scaled (ps : List (List (Nat × Nat))) (T : Nat) : List (List (List (Nat × Nat))) :=
  (List.range T).map fun t => ps.map (hashPart Prod.fst T t)

def sess : Env (Nat × Nat) where
  desired := fun p => match p with
    | .node (.leaf _) _ _ => .ok (some (.desired 3))
    | _ => .ok none
  scale := fun p T => match p with
    | .node (.leaf ps) tc _ => some (.ok (.node (.distLeaf ps (scaled ps T)) tc []))
    | _ => none
  effect := fun _ => .equal
  factor := 1
  broadcastJoins := true
  isolateUnions := true
  partialReduce := true
  maxTasks := 4
  targetPartitions := 2

theorem sess_ok : EnvOk sess where
  desired p t h := by
    cases p with
    | node k tc cs =>
      cases k
      case leaf => cases h; decide
      all_goals (replace h := Except.ok.inj h; cases h)
  maxTasks := by decide
  factor := by decide +kernel
  target := by decide

theorem scaled_perm (ps : List (List (Nat × Nat))) {T : Nat} (hT : 0 < T) :
    (scaled ps T).flatten.flatten.Perm ps.flatten := by
  unfold scaled
  induction ps with
  | nil =>
    induction List.range T with
    | nil => exact .refl _
    | cons t l ih => simpa using ih
  | cons a ps ih =>
    have : ((List.range T).map fun t => (a :: ps).map (hashPart Prod.fst T t)).flatten.flatten.Perm
        (((List.range T).flatMap fun t => hashPart Prod.fst T t a)
          ++ ((List.range T).map fun t => ps.map (hashPart Prod.fst T t)).flatten.flatten) := by
      clear ih
      induction List.range T with
      | nil => exact .refl _
      | cons t l ih =>
        simp only [List.map_cons, List.flatten_cons, List.flatten_append, List.flatMap_cons, List.append_assoc] at ih ⊢
        refine List.Perm.append_left _ ?_
        refine (List.Perm.append_left _ ih).trans ?_
        rw [← List.append_assoc, ← List.append_assoc]
        exact List.perm_append_comm.append_right _
    refine this.trans ?_
    rw [List.flatten_cons]
    exact (hashPart_perm _ _ hT _).append ih

theorem leaf_src {ph : Phase} (ps : List (List (Nat × Nat))) (one : Bool) (hne : ps ≠ []) (ho : one = true → ps.length = 1) :
    Src sess ph (fresh (.leaf ps) []) ⟨none, one, false, .perm, false⟩ := by
  refine .leaf hne ho ?_
  intro d hd
  refine ⟨?_, by simp⟩
  intro T hT tc
  refine ⟨(fun h => by cases h), ?_⟩
  intro p' hp
  cases hp
  have hT' : 0 < T := by
    cases hd
    exact hT
  refine ⟨rfl, rfl, ps.length, ?_, ho, fun d hd => ?_⟩
  rotate_left
  · obtain ⟨_, _, e⟩ := answer_node.mp hd
    exact .of_eq e
  refine .distLeaf (List.length_pos_iff.mpr hne) (by simp [scaled]) ?_ (by simp) (scaled_perm ps hT')
  intro v hv
  simp only [scaled, List.mem_map] at hv
  obtain ⟨t, _, rfl⟩ := hv
  simp

/-- `SUM(second) GROUP BY first`. -/
def sum : Agg (Nat × Nat) Nat Nat where
  key := Prod.fst
  lift := Prod.snd
  merge := (· + ·)
  comm := Nat.add_comm
  assoc := Nat.add_assoc
  row := Prod.mk
  st := Prod.snd
  key_row _ _ := rfl
  st_row _ _ := rfl
  fin := Prod.mk

/-- `SUM(second)`. -/
def sumAll : GlobalAgg (Nat × Nat) Nat where
  lift := Prod.snd
  zero := 0
  merge := (· + ·)
  comm := Nat.add_comm
  assoc := Nat.add_assoc
  zero_merge := Nat.zero_add
  row := fun s => (0, s)
  st := Prod.snd
  st_row _ := rfl
  fin := fun s => (0, s)

/-- An inner join on the first component. -/
def onFirst (jt : JoinType) : JoinSpec (Nat × Nat) where
  jt := jt
  on := fun l r => l.1 == r.1
  comb := fun l r => ((l.getD (0, 0)).1, (l.getD (0, 0)).2 + (r.getD (0, 0)).2)
  mark := fun r _ => r
  lk := Prod.fst
  rk := Prod.fst

def small : Plan (Nat × Nat) := fresh (.leaf [[(1, 10), (2, 20)], [(3, 30)]]) []
def big : Plan (Nat × Nat) := fresh (.leaf [[(1, 1), (2, 2), (1, 3)], [(3, 4), (2, 5), (7, 6)], [(1, 8)]]) []
def keep : Kind (Nat × Nat) := .op (.det fun as => (as.getD 0 []).filter fun r => r.2 < 30) none

/-- Filter over a join whose build side gets broadcast. -/
def input : Plan (Nat × Nat) :=
  fresh keep [fresh (.join .collect (onFirst .inner)) [fresh (.coalesce none) [small], big]]

theorem keep_hom : Hom (.perm : RowEq (Nat × Nat)) .perm (.det fun as => (as.getD 0 []).filter fun r => r.2 < 30) :=
  HomFn.hom {
    nil := by exact .refl _
    append := fun a b => by show List.Perm _ _; simp
    congr := fun a b h => List.Perm.filter _ h }

theorem input_src : Src sess .pre input ⟨none, false, false, .perm, false⟩ := by
  refine .opLocal (d := none) keep_hom (by rintro r ⟨⟩) (by rintro _ _ ⟨⟩) ?_
  refine .joinSafe (oneB := true) (repB := false) (d := none) (gaB := true) (by simp) rfl rfl (by rintro _ _ ⟨⟩)
    (by intro _ g e; cases e) (by simp) (by simp) (by simp) ?_ (leaf_src _ _ (by simp) (by simp))
  exact .gather (.inl rfl) (by rintro _ _ ⟨⟩) (fun _ => ⟨by rintro _ _ _ ⟨⟩, by rintro _ ⟨⟩⟩) (by simp)
    (leaf_src _ false (by simp) (by simp))

theorem input_det : Det input := by
  simp only [input, small, big, fresh, Det, DetAll, keep, Kind.Det, and_true]
  exact Op.det_det _

end Demo

/-- The theorems apply: this query is distributed into three stages with three tasks each. -/
example : ∃ p', plan Demo.sess (twoStep Demo.sum id 2 Demo.input) = .ok (some p')
    ∧ (distributed p').Perm (Demo.sum.single (singleNode Demo.input)) := by
  obtain ⟨p', hp⟩ := planned_of (env := Demo.sess) (p := twoStep Demo.sum id 2 Demo.input) (by decide +kernel)
  exact ⟨p', hp, C11_two_step_aggregation Demo.sum Demo.sess_ok id (by decide) Demo.input_src Demo.input_det.oneAnswer hp⟩

example : ∃ p', plan Demo.sess (twoStepGlobal Demo.sumAll Demo.input) = .ok (some p')
    ∧ distributed p' = Demo.sumAll.single (singleNode Demo.input) := by
  obtain ⟨p', hp⟩ := planned_of (env := Demo.sess) (p := twoStepGlobal Demo.sumAll Demo.input) (by decide +kernel)
  exact ⟨p', hp, C11_two_step_global_aggregation Demo.sumAll Demo.sess_ok Demo.input_src Demo.input_det.oneAnswer hp⟩

/-- Non-vacuity of C08 on a query with a broadcast join, a filter and a root with several partitions. -/
example : ∃ p', plan Demo.sess Demo.input = .ok (some p')
    ∧ (distributed p').Perm (singleNode Demo.input) := by
  obtain ⟨p', hp⟩ := planned_of (env := Demo.sess) (p := Demo.input) (by decide +kernel)
  refine ⟨p', hp, (C08_distributed_eq_single_node_partial Demo.sess_ok Demo.input_src rfl rfl (.inr ?_)
    Demo.input_det.oneAnswer hp).2⟩
  intro p1 h1
  have : normalize Demo.sess Demo.input = .ok Demo.input := by rfl
  rw [this] at h1; cases h1
  exact ⟨by decide +kernel, rfl⟩

/-! ### Where the conditions of `Src` are needed -/

/-- The rows a distributed query returns. -/
def result (env : Env Row) (p : Plan Row) : Option (List Row) :=
  match plan env p with
  | .ok (some p') => some (distributed p')
  | _ => none

namespace Demo

/-- `SUM` computed by one `AggregateMode::Single` node. -/
def sumSingle : Kind (Nat × Nat) := .op (.det fun as => sumAll.single (as.getD 0 [])) none
/-- A scan with a single partition. -/
def one : Plan (Nat × Nat) := fresh (.leaf [[(1, 1), (2, 2), (3, 3)]]) []
/-- `SELECT SUM(x) FROM t UNION ALL SELECT SUM(x) FROM t`, as planned with `target_partitions = 1`. -/
def twoSums : Plan (Nat × Nat) := fresh .union [fresh sumSingle [one], fresh sumSingle [one]]
/-- Round robin: row `i` goes to partition `i % n`. -/
def roundRobin (n : Nat) : Kind (Nat × Nat) :=
  .otherRepart n fun ins q => (ins.flatten.zipIdx.filter fun x => x.2 % n == q).map (·.1)
/-- Round robin into fewer partitions, then gathered. -/
def dealt : Plan (Nat × Nat) :=
  fresh (.coalesce none) [fresh (roundRobin 2) [fresh (.leaf [[(1, 1)], [(2, 2)], [(3, 3)]]) []]]

end Demo

/-- **C08 is false** for operators that need all their input in one partition if the input has one partition but is
not gathered: nothing keeps such an operator in a single task. A leaf with one partition that may be split over
three tasks makes each task compute its own `SUM`. -/
theorem C08_ungathered_single_partition_operator_false :
    singleNode Demo.twoSums = [(0, 6), (0, 6)]
    ∧ result Demo.sess Demo.twoSums = some [(0, 2), (0, 4), (0, 2), (0, 4)]
    ∧ result { Demo.sess with isolateUnions := false } Demo.twoSums
        = some [(0, 3), (0, 3), (0, 1), (0, 1), (0, 2), (0, 2)] := by decide +kernel

/-- **C08 is false** directly above a `RepartitionExec` that is not a hash repartitioning: the boundary's head
`ProducerHead::None` takes the repartitioning off, but the boundary reads as many partitions as it had. -/
theorem C08_round_robin_below_coalesce_false :
    singleNode Demo.dealt = [(1, 1), (3, 3), (2, 2)]
    ∧ result Demo.sess Demo.dealt = some [(1, 1), (2, 2)] := by decide +kernel

/-- A leaf no scale-up handler answers for is run by every task of its stage, which duplicates its rows. -/
theorem C08_unscaled_leaf_false :
    singleNode Demo.small = [(1, 10), (2, 20), (3, 30)]
    ∧ result { Demo.sess with scale := fun _ _ => none } Demo.small
        = some [(1, 10), (2, 20), (3, 30), (1, 10), (2, 20), (3, 30), (1, 10), (2, 20), (3, 30)] := by
  decide +kernel

end DD.Tree
