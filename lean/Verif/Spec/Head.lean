/-
Plans whose root has one partition but is not gathered: their head stage is planned with several tasks and run by the
coordinator as one.
-/
import Verif.Spec.Source

namespace DD.Tree

variable {Row : Type}

/-- Repartitionings and gathering nodes: a boundary comes right above the former and right below the latter. -/
def Kind.endsStage : Kind Row → Bool
  | .hashRepart .. | .broadcast .. | .coalesce _ | .spm .. => true
  | _ => false

/-- From the root down to where the first boundaries will be there are only operators, joins and scans of one
partition; no unions and no other repartitionings. -/
inductive HeadOk : Plan Row → Prop where
  | leaf {tc ps} : ps.length = 1 → HeadOk (.node (.leaf ps) tc [])
  | op {tc g red cs} : cs ≠ [] → (∀ c ∈ cs, HeadOk c) → HeadOk (.node (.op g red) tc cs)
  | join {tc m s cs} : cs ≠ [] → (∀ c ∈ cs, HeadOk c) → HeadOk (.node (.join m s) tc cs)
  | ends {k tc c} : k.endsStage = true → (c.kind.isHead = true → c.children.length = 1) → HeadOk (.node k tc [c])

/-- The scale-up handlers accept scans of one partition and make scans of them which on the coordinator, where they are not
divided, read what the original scan reads. (`DistributedLeafExec` runs the original scan there.) -/
def CoordinatorReads (env : Env Row) : Prop :=
  ∀ ps tc T, ps.length = 1 → 1 ≤ T →
    match env.scale (.node (.leaf ps) tc []) T with
    | none => True
    | some (.error _) => False
    | some (.ok p) => p.children = [] ∧ p.kind.isNet = false ∧ (run p).parts = 1
        ∧ ∀ q, (run p).exec false ⟨0, 1⟩ q = ps.getD q []

/-- A plan of one partition: `Src`, with operators above it that need all their input (global aggregations, sorts, limits).
Compare `Src.opSingle`: nothing needs to be gathered, the coordinator runs them as one task anyway. -/
inductive Top (env : Env Row) (ph : Phase) : Plan Row → RowEq Row → Prop where
  | src {p d E ga} : Src env ph p ⟨d, true, false, E, ga⟩ → Top env ph p E
  | op {tc g red c E E'} : Whole [E] E' g → ReduceOk E' red → Top env ph c E → Top env ph (.node (.op g red) tc [c]) E'

/-- The plan has, after `normalize_collect_joins`, several partitions and is no round-robin repartitioning, or it
has one and what the coordinator will run itself is as above. Compare `RootOk`: nothing needs to be gathered. -/
def AnyRoot (env : Env Row) (p : Plan Row) (E : RowEq Row) : Prop :=
  (∃ d one ga, Src env .pre p ⟨d, one, false, E, ga⟩ ∧ ∀ p1, normalize env p = .ok p1 →
    1 < p1.parts ∧ (∀ n deal, p1.kind ≠ .otherRepart n deal) ∧ (p1.kind.isHead = true → p1.children.length = 1))
  ∨ (Top env .pre p E ∧ ∀ p1, normalize env p = .ok p1 → HeadOk p1)

end DD.Tree
