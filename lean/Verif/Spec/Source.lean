/-
The plans given to the planner, and the plans between its passes.
-/
import Verif.Spec.Plan

namespace DD.Tree

variable {Row : Type}

/-- The session answers are usable: handlers wish for at least one task, there is at least one worker slot,
the cardinality factor and the target partition count are positive. -/
structure EnvOk (env : Env Row) : Prop where
  desired : ∀ p t, env.desired p = .ok (some t) → 1 ≤ t.asUsize
  maxTasks : 1 ≤ env.maxTasks
  factor : 0 < env.factor
  target : 0 < env.targetPartitions

/-- A node whose task count is annotated with `t` may run with `T` tasks. -/
def Allowed : TaskCount → Nat → Prop
  | .desired _, T => 1 ≤ T
  | .maximum m, T => 1 ≤ T ∧ T ≤ m

/-- The scale-up handlers turn a leaf into a plan that, run by `T` tasks, produces the same rows; a leaf
no handler answers for stays in one task. -/
def ScaleOk (env : Env Row) (ps : List (List Row)) (one : Bool) (t : TaskCount) : Prop :=
  ∀ T, Allowed t T → ∀ tc,
    (env.scale (.node (.leaf ps) tc []) T = none → T = 1)
    ∧ ∀ p', env.scale (.node (.leaf ps) tc []) T = some (.ok p') →
        p'.kind.isHead = false ∧ p'.kind.isNet = false ∧
        ∃ P, Legal true T p' ⟨P, none, false, .perm⟩ ∧ (one = true → P = 1) ∧ ∀ d, Answer p' d → d.Perm ps.flatten

/-- Where a plan stands: as given by DataFusion, after `normalize_collect_joins`, or ready for network
boundaries. -/
inductive Phase where
  | pre | mid | post
  deriving DecidableEq

/-- What is known about a plan without network boundaries: its hash partitioning (with partition count),
whether it has one partition, whether every task will get a full copy of it, the equivalence up to
which it produces its meaning, and whether it is certain to run in a single task. -/
structure SInfo (Row : Type) where
  dist : Option ((Row → Nat) × Nat)
  one : Bool
  rep : Bool
  eqv : RowEq Row
  gathered : Bool

/-- `Src env ph p J`: a plan the planner gets from DataFusion (`ph = .pre`) or that its passes make of it.
User-placed boundaries are not covered. -/
inductive Src (env : Env Row) (ph : Phase) : Plan Row → SInfo Row → Prop where
  | leaf {tc ps one ga} : ps ≠ [] → (one = true → ps.length = 1) →
      (∀ d, env.desired (.node (.leaf ps) tc []) = .ok d →
        ScaleOk env ps one (annotate env (.leaf ps) d [])
        ∧ (ga = true → annotate env (.leaf ps) d [] = .maximum 1)) →
      Src env ph (.node (.leaf ps) tc []) ⟨none, one, false, .perm, ga⟩
  /-- filters, projections, partial aggregations: see `Hom` -/
  | opLocal {tc g red c d d' one ga} {E E' : RowEq Row} : Hom E E' g → ReduceOk E' red →
      (∀ h' P, d' = some (h', P) → ∃ h, d = some (h, P) ∧ KeepsBuckets [h] h' g) →
      Src env ph c ⟨d, one, false, E, ga⟩ → Src env ph (.node (.op g red) tc [c]) ⟨d', one, false, E', ga⟩
  /-- final aggregations, windows: operators on hash partitioned inputs, see `Keyed` -/
  | opKeyed {tc g red cs P d' ga} {hs : List (Row → Nat)} {Es : List (RowEq Row)} {gs : List Bool} {E' : RowEq Row} :
      Keyed Es E' hs g → ReduceOk E' red →
      (∀ h' P', d' = some (h', P') → P' = P ∧ KeepsBuckets hs h' g) → cs ≠ [] →
      cs.length = hs.length → cs.length = Es.length → cs.length = gs.length → (ga = true → true ∈ gs) →
      (∀ (i : Nat) c h E b, cs[i]? = some c → hs[i]? = some h → Es[i]? = some E → gs[i]? = some b →
        Src env ph c ⟨some (h, P), false, false, E, b⟩) →
      Src env ph (.node (.op g red) tc cs) ⟨d', false, false, E', ga⟩
  /-- operators that need all their input: global aggregations, sorts. Their input must be gathered: see
  `C08_ungathered_single_partition_operator_false` for what happens otherwise. -/
  | opSingle {tc g red cs} {Es : List (RowEq Row)} {gs : List Bool} {E' : RowEq Row} :
      Whole Es E' g → ReduceOk E' red → cs ≠ [] →
      cs.length = Es.length → cs.length = gs.length → true ∈ gs →
      (∀ (i : Nat) c E b, cs[i]? = some c → Es[i]? = some E → gs[i]? = some b →
        Src env ph c ⟨none, true, false, E, b⟩) →
      Src env ph (.node (.op g red) tc cs) ⟨none, true, false, E', true⟩
  /-- joins the planner may broadcast. DataFusion collects the build side into one partition; the passes
  replace that by a broadcast. The build side must not be limited while it is collected: see
  `C08_limited_build_side_false` for what happens otherwise. -/
  | joinSafe {tc m s b p d d' one oneB repB ga gaB} : m ≠ .partitioned → s.safe = true → env.broadcastJoins = true →
      (∀ h' P, d' = some (h', P) → ∃ h, d = some (h, P)
        ∧ ∀ ls, KeepsBuckets [h] h' (.det fun as => joinRows s ls (as.getD 0 []))) →
      (ph ≠ .post → ∀ g, b.kind ≠ .coalesce (some g)) →
      (ph = .pre → oneB = true) → (ph = .post → oneB = true ∧ repB = true) → (ph ≠ .post → repB = false) →
      Src env ph b ⟨none, oneB, repB, .perm, gaB⟩ → Src env ph p ⟨d, one, false, .perm, ga⟩ →
      Src env ph (.node (.join m s) tc [b, p]) ⟨d', one, false, .perm, ga⟩
  /-- joins that run in one task and are not rewritten -/
  | joinPinned {tc m s b p one repB ga gaB} : m ≠ .partitioned → pinned env (.join m s) = true → s.Unordered →
      (ph = .pre → m = .collect → s.jt.broadcastSafe = false → s.nullAware = none → one = true) →
      (ph = .pre → m = .nested → env.broadcastJoins = true → s.jt.broadcastSafe = false → s.jt ≠ .full → one = true) →
      (ph ≠ .post → repB = false) → (ph ≠ .post → canBroadcast (.join m s) = true → ∀ g, b.kind ≠ .coalesce (some g)) →
      Src env ph b ⟨none, true, repB, .perm, gaB⟩ → Src env ph p ⟨none, one, false, .perm, ga⟩ →
      Src env ph (.node (.join m s) tc [b, p]) ⟨none, one, false, .perm, true⟩
  /-- a collected hash join that emits unmatched build rows -/
  | joinCollect {tc s b p one ga gaB} : ph = .pre → s.jt.broadcastSafe = false → s.nullAware = none → s.Equi →
      Src env ph b ⟨none, true, false, .perm, gaB⟩ → Src env ph p ⟨none, one, false, .perm, ga⟩ →
      Src env ph (.node (.join .collect s) tc [b, p]) ⟨none, false, false, .perm, false⟩
  /-- a nested loop join that emits unmatched build rows. The planner swaps its sides and broadcasts the probe side. -/
  | joinNested {tc s b p one ga gaB} : ph = .pre → env.broadcastJoins = true → s.jt.broadcastSafe = false →
      s.jt ≠ .full → s.nullAware = none → (∀ g, p.kind ≠ .coalesce (some g)) →
      Src env ph b ⟨none, true, false, .perm, gaB⟩ → Src env ph p ⟨none, one, false, .perm, ga⟩ →
      Src env ph (.node (.join .nested s) tc [b, p]) ⟨none, false, false, .perm, false⟩
  | joinPart {tc s l r P d' ga gaL gaR} : s.Equi → s.nullAware = none →
      (∀ h' P', d' = some (h', P') → P' = P
        ∧ KeepsBuckets [s.lk, s.rk] h' (.det fun as => joinRows s (as.getD 0 []) (as.getD 1 []))) →
      (ga = true → gaL = true ∨ gaR = true) →
      Src env ph l ⟨some (s.lk, P), false, false, .perm, gaL⟩ →
      Src env ph r ⟨some (s.rk, P), false, false, .perm, gaR⟩ →
      Src env ph (.node (.join .partitioned s) tc [l, r]) ⟨d', false, false, .perm, ga⟩
  | union {tc cs E} {gs : List Bool} : cs ≠ [] → cs.length = gs.length →
      (∀ (i : Nat) c b, cs[i]? = some c → gs[i]? = some b → Src env ph c ⟨none, false, false, E, b⟩) →
      Src env ph (.node .union tc cs) ⟨none, false, false, E, false⟩
  | ciu {tc ws m cs E} {gs : List Bool} : ph = .post → cs ≠ [] → cs.length = gs.length →
      (∀ (i : Nat) c b, cs[i]? = some c → gs[i]? = some b → Src env ph c ⟨none, false, false, E, b⟩) →
      Src env ph (.node (.ciu ws m) tc cs) ⟨none, false, false, E, false⟩
  | hashRepart {tc h n o c one one' E ga} : 0 < n → (one' = true → n = 1) →
      Src env ph c ⟨none, one, false, E, ga⟩ →
      Src env ph (.node (.hashRepart h n o) tc [c]) ⟨some (h, n), one', false, E, false⟩
  | otherRepart {tc n deal c one one' E ga} : 0 < n → (one' = true → n = 1) → DealOk n deal →
      Src env ph c ⟨none, one, false, E, ga⟩ →
      Src env ph (.node (.otherRepart n deal) tc [c]) ⟨none, one', false, E, ga⟩
  /-- gathering. `gathers` are `CoalescePartitionsExec` and `SortPreservingMergeExec`; directly above a
  non-hash `RepartitionExec` they are not covered, see `C08_round_robin_below_coalesce_false`. -/
  | gather {tc k c d one rep E ga ga'} : (k = .coalesce none ∨ ∃ le, k = .spm none le) →
      (∀ n deal, c.kind ≠ .otherRepart n deal) →
      (ga' = true → (∀ h n o, c.kind ≠ .hashRepart h n o) ∧ (∀ n, c.kind ≠ .broadcast n)) →
      (rep = true → ∃ n, c.kind = .broadcast n) →
      Src env ph c ⟨d, one, rep, E, ga⟩ → Src env ph (.node k tc [c]) ⟨none, true, rep, E, ga'⟩
  /-- gathering with a fetch: the fetch of the single task sees all rows -/
  | fetch {tc k g c d one E E' ga} : (k = .coalesce (some g) ∨ ∃ le, k = .spm (some g) le) → Whole [E] E' g →
      (∀ n deal, c.kind ≠ .otherRepart n deal) → (∀ h n o, c.kind ≠ .hashRepart h n o) → (∀ n, c.kind ≠ .broadcast n) →
      Src env ph c ⟨d, one, false, E, ga⟩ → Src env ph (.node k tc [c]) ⟨none, true, false, E', true⟩
  | broadcast {tc c one E ga} : ph = .post → Src env ph c ⟨none, one, false, E, ga⟩ →
      Src env ph (.node (.broadcast 1) tc [c]) ⟨none, one, true, E, false⟩
  | forget {p d one rep E ga d' one' ga'} : Src env ph p ⟨d, one, rep, E, ga⟩ → (d' = d ∨ d' = none) →
      (one' = true → one = true) → (ga' = true → ga = true) → Src env ph p ⟨d', one', rep, E, ga'⟩
  | coarsen {p d one rep E E' ga} : (∀ a b, E.eqv a b → E'.eqv a b) →
      Src env ph p ⟨d, one, rep, E, ga⟩ → Src env ph p ⟨d, one, rep, E', ga⟩

/-- The root of the plan ends up in one task: it is gathered already and has one partition, or it has several
after `normalize_collect_joins`, so that the planner gathers it, and is not a repartitioning itself. -/
def RootOk (env : Env Row) (p : Plan Row) (J : SInfo Row) : Prop :=
  (J.gathered = true ∧ J.one = true)
    ∨ ∀ p1, normalize env p = .ok p1 → 1 < p1.parts ∧ p1.kind.isHead = false

end DD.Tree
