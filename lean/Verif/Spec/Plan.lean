/-
The specification side of the plan claims: what a plan means, independently of how it is partitioned and
distributed, and what operators and leaves promise.

`Answer` is the meaning of a plan: what a query may return if every node is applied once to the whole output
of its inputs. Partitions, tasks, stages and network boundaries do not occur in it. A plan has more than one answer if
its operators choose (limits, sorts with ties).

`Good` says that executing a plan with `T` tasks yields one of them.

`Legal` is the typing judgement of executable (distributed) plans and `Src` the one of the plans given to the
planner. The rules for ordinary operators are the contracts under which DataFusion itself may run an
operator partition by partition; they are assumptions about operators, not about this project.
-/
import Verif.Model.Planner
import Verif.Props.Union

namespace DD.Tree

variable {Row : Type}

/-! ### When two row lists count as the same -/

/-- An equivalence of row collections that forgets order and is preserved by adding rows. The results of
queries are compared with `RowEq.perm` (equal as multisets). Coarser equivalences are needed inside a plan:
two lists of partial aggregation states are the same if they finalise to the same groups. -/
structure RowEq (Row : Type) where
  eqv : List Row → List Row → Prop
  ofPerm : ∀ {a b}, a.Perm b → eqv a b
  symm : ∀ {a b}, eqv a b → eqv b a
  trans : ∀ {a b c}, eqv a b → eqv b c → eqv a c
  append : ∀ {a b c d}, eqv a b → eqv c d → eqv (a ++ c) (b ++ d)

/-- Equal as multisets. -/
def RowEq.perm : RowEq Row where
  eqv := List.Perm
  ofPerm h := h
  symm h := h.symm
  trans h g := h.trans g
  append h g := h.append g

/-- Every row collection in `A` is the same as one in `B`. -/
def RowEq.sub (E : RowEq Row) (A B : List Row → Prop) : Prop := ∀ a, A a → ∃ b, B b ∧ E.eqv a b

/-! ### The meaning of a plan -/

/-- What a node may return if it is applied to the whole outputs of its children. -/
def ansKind (k : Kind Row) (ds : List (List Row)) (d : List Row) : Prop :=
  match k with
  | .leaf ps => d = ps.flatten
  | .distLeaf o _ => d = o.flatten
  | .op g _ => g.may ds d
  | .join _ s => d = joinRows s (ds.getD 0 []) (ds.getD 1 [])
  | .union | .ciu .. => d = ds.flatten
  | .coalesce (some g) | .spm (some g) _ => g.may [ds.getD 0 []] d
  | _ => d = ds.getD 0 []

/- The meaning of a plan: its possible answers. -/
mutual
def Answer : Plan Row → List Row → Prop
  | .node k _ cs, d => ∃ ds, AnswerAll cs ds ∧ ansKind k ds d
def AnswerAll : List (Plan Row) → List (List Row) → Prop
  | [], ds => ds = []
  | c :: cs, ds => ∃ d rest, ds = d :: rest ∧ Answer c d ∧ AnswerAll cs rest
end

/-- The query has only one answer, up to the order of rows. -/
def OneAnswer (p : Plan Row) : Prop := ∀ d d', Answer p d → Answer p d' → d.Perm d'

/-- The operator has no choice. -/
def Op.Det (g : Op Row) : Prop := ∀ as x y, g.may as x → g.may as y → x = y

def Kind.Det : Kind Row → Prop
  | .op g _ | .coalesce (some g) | .spm (some g) _ => g.Det
  | _ => True

/- No operator of the plan has a choice. -/
mutual
def Det : Plan Row → Prop
  | .node k _ cs => k.Det ∧ DetAll cs
def DetAll : List (Plan Row) → Prop
  | [] => True
  | c :: cs => Det c ∧ DetAll cs
end

/-! ### Operator contracts -/

/-- An operator with one input that treats every row, or every batch of rows, on its own: filters,
projections, unnesting; partial aggregations (`E'` identifying partial states); limits per partition. -/
structure Hom (E E' : RowEq Row) (g : Op Row) : Prop where
  nil : ∀ x, g.may [[]] x → E'.eqv x []
  append : ∀ a b x y, g.may [a] x → g.may [b] y → ∃ z, g.may [a ++ b] z ∧ E'.eqv (x ++ y) z
  congr : ∀ a b x, E.eqv a b → g.may [a] x → ∃ y, g.may [b] y ∧ E'.eqv x y

/-- The same for an operator without choice. -/
structure HomFn (E E' : RowEq Row) (g : List (List Row) → List Row) : Prop where
  nil : E'.eqv (g [[]]) []
  append : ∀ a b, E'.eqv (g [a ++ b]) (g [a] ++ g [b])
  congr : ∀ a b, E.eqv a b → E'.eqv (g [a]) (g [b])

/-- Pairwise equivalent inputs. -/
def SameInputs : List (RowEq Row) → List (List Row) → List (List Row) → Prop
  | [], [], [] => True
  | E :: Es, a :: as, b :: bs => E.eqv a b ∧ SameInputs Es as bs
  | _, _, _ => False

/-- An operator that needs all its input in one partition: it only has to respect the equivalences. -/
def Whole (Es : List (RowEq Row)) (E' : RowEq Row) (g : Op Row) : Prop :=
  ∀ as bs x, SameInputs Es as bs → g.may as x → ∃ y, g.may bs y ∧ E'.eqv x y

/-- An operator that may be applied to each bucket of hash partitioned inputs separately: final
aggregations, partitioned joins and windows, on their keys. -/
structure Keyed (Es : List (RowEq Row)) (E' : RowEq Row) (hs : List (Row → Nat)) (g : Op Row) : Prop where
  congr : Whole Es E' g
  buckets : ∀ n, 0 < n → ∀ as, as.length = hs.length → ∀ xs : Nat → List Row,
    (∀ b < n, g.may (List.zipWith (fun h a => hashPart h n b a) hs as) (xs b)) →
    ∃ z, g.may as z ∧ E'.eqv ((List.range n).flatMap xs) z

/-- The same for an operator without choice. -/
structure KeyedFn (Es : List (RowEq Row)) (E' : RowEq Row) (hs : List (Row → Nat))
    (g : List (List Row) → List Row) : Prop where
  congr : ∀ as bs, SameInputs Es as bs → E'.eqv (g as) (g bs)
  buckets : ∀ n, 0 < n → ∀ as, as.length = hs.length →
    E'.eqv (g as) ((List.range n).flatMap fun b => g (List.zipWith (fun h a => hashPart h n b a) hs as))

/-- The operator keeps rows in the bucket given by `h'` of its output if its inputs are in the bucket given by
`hs`. -/
def KeepsBuckets (hs : List (Row → Nat)) (h' : Row → Nat) (g : Op Row) : Prop :=
  ∀ n b as x, as.length = hs.length → g.may as x →
    (∀ (i : Nat) (h : Row → Nat) (a : List Row), hs[i]? = some h → as[i]? = some a → ∀ x ∈ a, h x % n = b) → ∀ y ∈ x, h' y % n = b

/-- The `PartialReduce` aggregation belonging to a partial aggregation merges states without changing what
they stand for. -/
def ReduceOk (E : RowEq Row) (reduce : Option (Op Row)) : Prop :=
  ∀ r, reduce = some r → Hom E E r ∧ ∀ a x, r.may [a] x → E.eqv x a

/-- Rows are dealt to `n` partitions, each row to one. -/
def DealOk (n : Nat) (deal : List (List Row) → Nat → List Row) : Prop :=
  ∀ ins, ((List.range n).flatMap (deal ins)).Perm ins.flatten

/-- Matching rows have equal hashes of the join keys. -/
def JoinSpec.Equi (s : JoinSpec Row) : Prop := ∀ l r, s.on l r = true → s.lk l = s.rk r

/-- The join does not depend on the order of its inputs. Only a condition on null-aware joins: the others
satisfy it by definition. -/
def JoinSpec.Unordered (s : JoinSpec Row) : Prop :=
  ∀ f, s.nullAware = some f → ∀ a a' b b', a.Perm a' → b.Perm b' → (f a b).Perm (f a' b')

/-! ### Executing with `T` tasks -/

/-- What is known statically about an executable plan: partition count, the hash partitioning of its output
across all partitions of all tasks, whether every task produces a full copy (instead of its share), and
the equivalence up to which it produces its meaning. -/
structure Info (Row : Type) where
  parts : Nat
  dist : Option (Row → Nat)
  rep : Bool
  eqv : RowEq Row

/-- Running `r` with `T` tasks gives `d`. -/
structure Good (r : Ran Row) (w : Bool) (T : Nat) (I : Info Row) (d : List Row) : Prop where
  parts : r.parts = I.parts
  share : I.rep = false → I.eqv.eqv ((List.range T).flatMap fun i => r.rows w ⟨i, T⟩) d
  copy : I.rep = true → ∀ i < T, I.eqv.eqv (r.rows w ⟨i, T⟩) d
  dist : ∀ h, I.dist = some h → ∀ i < T, ∀ q < I.parts, ∀ x ∈ r.exec w ⟨i, T⟩ q,
    h x % (T * I.parts) = i * I.parts + q

/-! ### Executable plans -/

/-- `Legal ph T p I`: plan `p` can be executed by `T` tasks with the guarantees `I`. `ph` is true for a plan
whose boundaries have not been prepared yet: then the head of each boundary's input is still the node
the boundary was created for. -/
inductive Legal (ph : Bool) : Nat → Plan Row → Info Row → Prop where
  /-- a plain leaf produces all its rows in every task, so it runs in one -/
  | leaf {tc ps} : ps ≠ [] → Legal ph 1 (.node (.leaf ps) tc []) ⟨ps.length, none, false, .perm⟩
  /-- one variant per task, together the original leaf -/
  | distLeaf {tc o vs T P} : 0 < P → vs.length = T → (∀ v ∈ vs, v.length = P) → (T = 1 → o.length = P) →
      (vs.flatten.flatten).Perm o.flatten →
      Legal ph T (.node (.distLeaf o vs) tc []) ⟨P, none, false, .perm⟩
  | opLocal {tc g red c T P d d' E E'} : Hom E E' g → ReduceOk E' red →
      (∀ h', d' = some h' → ∃ h, d = some h ∧ KeepsBuckets [h] h' g) →
      Legal ph T c ⟨P, d, false, E⟩ → Legal ph T (.node (.op g red) tc [c]) ⟨P, d', false, E'⟩
  | opKeyed {tc g red cs T P hs Es d' E'} : Keyed Es E' hs g → ReduceOk E' red →
      (∀ h', d' = some h' → KeepsBuckets hs h' g) → cs ≠ [] →
      cs.length = hs.length → cs.length = Es.length →
      (∀ (i : Nat) c h E, cs[i]? = some c → hs[i]? = some h → Es[i]? = some E → Legal ph T c ⟨P, some h, false, E⟩) →
      Legal ph T (.node (.op g red) tc cs) ⟨P, d', false, E'⟩
  | opSingle {tc g red cs Es E'} : Whole Es E' g → ReduceOk E' red → cs ≠ [] → cs.length = Es.length →
      (∀ (i : Nat) c E, cs[i]? = some c → Es[i]? = some E → Legal ph 1 c ⟨1, none, false, E⟩) →
      Legal ph 1 (.node (.op g red) tc cs) ⟨1, none, false, E'⟩
  /-- a join whose build side every task has in full -/
  | joinSafe {tc m s b p T P d d'} : m ≠ .partitioned → s.safe = true →
      (∀ h', d' = some h' → ∃ h, d = some h ∧ ∀ ls, KeepsBuckets [h] h' (.det fun as => joinRows s ls (as.getD 0 []))) →
      Legal ph T b ⟨1, none, true, .perm⟩ → Legal ph T p ⟨P, d, false, .perm⟩ →
      Legal ph T (.node (.join m s) tc [b, p]) ⟨P, d', false, .perm⟩
  /-- any join in one task -/
  | joinSingle {tc m s b p P} : m ≠ .partitioned → s.Unordered →
      Legal ph 1 b ⟨1, none, false, .perm⟩ → Legal ph 1 p ⟨P, none, false, .perm⟩ →
      Legal ph 1 (.node (.join m s) tc [b, p]) ⟨P, none, false, .perm⟩
  | joinPart {tc s l r T P d'} : s.Equi → s.nullAware = none →
      (∀ h', d' = some h' → KeepsBuckets [s.lk, s.rk] h' (.det fun as => joinRows s (as.getD 0 []) (as.getD 1 []))) →
      Legal ph T l ⟨P, some s.lk, false, .perm⟩ → Legal ph T r ⟨P, some s.rk, false, .perm⟩ →
      Legal ph T (.node (.join .partitioned s) tc [l, r]) ⟨P, d', false, .perm⟩
  | union {tc cs T E} {Ps : List Nat} : cs ≠ [] → cs.length = Ps.length →
      (∀ (i : Nat) c P, cs[i]? = some c → Ps[i]? = some P → Legal ph T c ⟨P, none, false, E⟩) →
      Legal ph T (.node .union tc cs) ⟨Ps.sum, none, false, E⟩
  /-- an isolated union whose assignment runs every task of every child once, and no two tasks of a child in one -/
  | ciu {tc ws m cs T E k} {Ps : List Nat} : cs ≠ [] → cs.length = Ps.length → m.length = T →
      Union.RunsAll cs.length k m → Union.OncePerTask m →
      (∀ (i : Nat) c P, cs[i]? = some c → Ps[i]? = some P → Legal ph (k i) c ⟨P, none, false, E⟩) →
      Legal ph T (.node (.ciu ws m) tc cs) ⟨ciuParts m Ps, none, false, E⟩
  | hashRepart {tc h n o c T P E d'} : 0 < n → (∀ h', d' = some h' → h' = h ∧ T = 1) →
      Legal ph T c ⟨P, none, false, E⟩ → Legal ph T (.node (.hashRepart h n o) tc [c]) ⟨n, d', false, E⟩
  | otherRepart {tc n deal c T P E} : 0 < n → DealOk n deal →
      Legal ph T c ⟨P, none, false, E⟩ → Legal ph T (.node (.otherRepart n deal) tc [c]) ⟨n, none, false, E⟩
  | coalesce {tc c T P rep E} : Legal ph T c ⟨P, none, rep, E⟩ →
      Legal ph T (.node (.coalesce none) tc [c]) ⟨1, none, rep, E⟩
  | spm {tc c T P rep E le} : Legal ph T c ⟨P, none, rep, E⟩ →
      Legal ph T (.node (.spm none le) tc [c]) ⟨1, none, rep, E⟩
  /-- a coalesce or merge with a fetch, in one task -/
  | fetch {tc k g c P E E'} : (k = .coalesce (some g) ∨ ∃ le, k = .spm (some g) le) → Whole [E] E' g →
      Legal ph 1 c ⟨P, none, false, E⟩ → Legal ph 1 (.node k tc [c]) ⟨1, none, false, E'⟩
  | broadcast {tc c T P rep E} : Legal ph T c ⟨P, none, rep, E⟩ →
      Legal ph T (.node (.broadcast 1) tc [c]) ⟨P, none, rep, E⟩
  /-- the worker replaces the head of the input by a hash repartitioning into `p * T` -/
  | shuffle {tc h p N num c T P E} : 0 < p → 0 < N →
      (ph = true → ∃ o tc' x, c = .node (.hashRepart h p o) tc' [x]) →
      (∀ h' n o, c.kind = .hashRepart h' n o → 0 < n) ∧ (c.kind.isHead = true → c.children.length = 1) →
      Legal ph N (strip c) ⟨P, none, false, E⟩ →
      Legal ph T (.node (.shuffle h p N num) tc [c]) ⟨p, some h, false, E⟩
  /-- the worker would take off a head of the input -/
  | netCoalesce {tc p N num c T P E} : 0 < N → p = P * max (divCeil N T) 1 →
      c.kind.isHead = false → (ph = true → c.kind.isNet = false) →
      Legal ph N (strip c) ⟨P, none, false, E⟩ →
      Legal ph T (.node (.netCoalesce p N num) tc [c]) ⟨p, none, false, E⟩
  /-- the worker replaces the head of the input by a broadcast node with `T` consumers -/
  | netBroadcast {tc p N num c T E} : 0 < N →
      (∃ n tc' x, c = .node (.broadcast n) tc' [x] ∧ (ph = true → n = 1)) →
      Legal ph N (strip c) ⟨p, none, false, E⟩ →
      Legal ph T (.node (.netBroadcast p N num) tc [c]) ⟨p, none, true, E⟩
  /-- a partitioning need not be used -/
  | forget {p T P d rep E} : Legal ph T p ⟨P, d, rep, E⟩ → Legal ph T p ⟨P, none, rep, E⟩
  /-- a single partition is hash partitioned on anything -/
  | trivial {p h E} : Legal ph 1 p ⟨1, none, false, E⟩ → Legal ph 1 p ⟨1, some h, false, E⟩
  /-- with one task, its share is a full copy -/
  | repFlip {p P d rep rep' E} : Legal ph 1 p ⟨P, d, rep, E⟩ → Legal ph 1 p ⟨P, none, rep', E⟩
  | coarsen {p T P d rep E E'} : (∀ a b, E.eqv a b → E'.eqv a b) →
      Legal ph T p ⟨P, d, rep, E⟩ → Legal ph T p ⟨P, d, rep, E'⟩

end DD.Tree
