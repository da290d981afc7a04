/-
Plans in which the user placed the network boundaries.
-/
import Verif.Spec.Create
import Verif.Spec.Plan

namespace DD.Tree.Create

open DD.Tree

variable {Row : Type}

/-- `Placed env T p I`: a plan with user-placed boundaries, of which `T` tasks will run the root, with the guarantees `I`.
The rules for boundaries say where a user may put them: a shuffle above a hash repartitioning, a broadcast above a
`BroadcastExec` (`try_new` of both refuses anything else), a coalesce that is told how many tasks will read it, above
anything but those two and another boundary. The other rules are those under which DataFusion runs an operator partition by
partition, as in `Legal`; leaves need not have been scaled up yet. -/
inductive Placed (env : Env Row) : Nat → Plan Row → Info Row → Prop where
  /-- a leaf the scale-up handlers turn into one with the same rows; a leaf no handler answers for runs in one task -/
  | leaf {tc ps T P} :
      (env.scale (.node (.leaf ps) tc []) T = none → T = 1 ∧ ps ≠ [] ∧ P = ps.length) →
      (∀ p', env.scale (.node (.leaf ps) tc []) T = some (.ok p') →
        Legal true T p' ⟨P, none, false, .perm⟩ ∧ ∀ d, Answer p' d → d.Perm ps.flatten) →
      Placed env T (.node (.leaf ps) tc []) ⟨P, none, false, .perm⟩
  /-- a leaf the user scaled up -/
  | distLeaf {tc o vs T P} : env.scale (.node (.distLeaf o vs) tc []) T = none →
      0 < P → vs.length = T → (∀ v ∈ vs, v.length = P) → (T = 1 → o.length = P) → (vs.flatten.flatten).Perm o.flatten →
      Placed env T (.node (.distLeaf o vs) tc []) ⟨P, none, false, .perm⟩
  | opLocal {tc g red c T P d d' E E'} : Hom E E' g → ReduceOk E' red →
      (∀ h', d' = some h' → ∃ h, d = some h ∧ KeepsBuckets [h] h' g) →
      Placed env T c ⟨P, d, false, E⟩ → Placed env T (.node (.op g red) tc [c]) ⟨P, d', false, E'⟩
  | opKeyed {tc g red cs T P hs Es d' E'} : Keyed Es E' hs g → ReduceOk E' red →
      (∀ h', d' = some h' → KeepsBuckets hs h' g) → cs ≠ [] →
      cs.length = hs.length → cs.length = Es.length →
      (∀ (i : Nat) c h E, cs[i]? = some c → hs[i]? = some h → Es[i]? = some E → Placed env T c ⟨P, some h, false, E⟩) →
      Placed env T (.node (.op g red) tc cs) ⟨P, d', false, E'⟩
  | opSingle {tc g red cs Es E'} : Whole Es E' g → ReduceOk E' red → cs ≠ [] → cs.length = Es.length →
      (∀ (i : Nat) c E, cs[i]? = some c → Es[i]? = some E → Placed env 1 c ⟨1, none, false, E⟩) →
      Placed env 1 (.node (.op g red) tc cs) ⟨1, none, false, E'⟩
  | joinSafe {tc m s b p T P d d'} : m ≠ .partitioned → s.safe = true →
      (∀ h', d' = some h' → ∃ h, d = some h ∧ ∀ ls, KeepsBuckets [h] h' (.det fun as => joinRows s ls (as.getD 0 []))) →
      Placed env T b ⟨1, none, true, .perm⟩ → Placed env T p ⟨P, d, false, .perm⟩ →
      Placed env T (.node (.join m s) tc [b, p]) ⟨P, d', false, .perm⟩
  | joinSingle {tc m s b p P} : m ≠ .partitioned → s.Unordered →
      Placed env 1 b ⟨1, none, false, .perm⟩ → Placed env 1 p ⟨P, none, false, .perm⟩ →
      Placed env 1 (.node (.join m s) tc [b, p]) ⟨P, none, false, .perm⟩
  | joinPart {tc s l r T P d'} : s.Equi → s.nullAware = none →
      (∀ h', d' = some h' → KeepsBuckets [s.lk, s.rk] h' (.det fun as => joinRows s (as.getD 0 []) (as.getD 1 []))) →
      Placed env T l ⟨P, some s.lk, false, .perm⟩ → Placed env T r ⟨P, some s.rk, false, .perm⟩ →
      Placed env T (.node (.join .partitioned s) tc [l, r]) ⟨P, d', false, .perm⟩
  | union {tc cs T E} {Ps : List Nat} : cs ≠ [] → cs.length = Ps.length →
      (∀ (i : Nat) c P, cs[i]? = some c → Ps[i]? = some P → Placed env T c ⟨P, none, false, E⟩) →
      Placed env T (.node .union tc cs) ⟨Ps.sum, none, false, E⟩
  | ciu {tc ws m cs T E k} {Ps : List Nat} : cs ≠ [] → cs.length = Ps.length → m.length = T →
      Union.RunsAll cs.length k m → Union.OncePerTask m →
      (∀ (i : Nat) c P, cs[i]? = some c → Ps[i]? = some P → Placed env (k i) c ⟨P, none, false, E⟩) →
      Placed env T (.node (.ciu ws m) tc cs) ⟨ciuParts m Ps, none, false, E⟩
  | hashRepart {tc h n o c T P E d'} : 0 < n → (∀ h', d' = some h' → h' = h ∧ T = 1) →
      Placed env T c ⟨P, none, false, E⟩ → Placed env T (.node (.hashRepart h n o) tc [c]) ⟨n, d', false, E⟩
  | otherRepart {tc n deal c T P E} : 0 < n → DealOk n deal →
      Placed env T c ⟨P, none, false, E⟩ → Placed env T (.node (.otherRepart n deal) tc [c]) ⟨n, none, false, E⟩
  | gather {tc k c T P rep E} : (k = .coalesce none ∨ ∃ le, k = .spm none le) → Placed env T c ⟨P, none, rep, E⟩ →
      Placed env T (.node k tc [c]) ⟨1, none, rep, E⟩
  | fetch {tc k g c P E E'} : (k = .coalesce (some g) ∨ ∃ le, k = .spm (some g) le) → Whole [E] E' g →
      Placed env 1 c ⟨P, none, false, E⟩ → Placed env 1 (.node k tc [c]) ⟨1, none, false, E'⟩
  | broadcast {tc c T P rep E} : Placed env T c ⟨P, none, rep, E⟩ →
      Placed env T (.node (.broadcast 1) tc [c]) ⟨P, none, rep, E⟩
  /-- `NetworkShuffleExec::try_new`, above a hash repartitioning into `p` -/
  | shuffle {tc tc' h p o N num x T P E} : 0 < p → 0 < N → Placed env N x ⟨P, none, false, E⟩ →
      Placed env T (.node (.shuffle h p N num) tc [.node (.hashRepart h p o) tc' [x]]) ⟨p, some h, false, E⟩
  /-- `NetworkCoalesceExec::try_new` with the right number of consumer tasks. Directly above another boundary it is not
  covered: see `C08_coalesce_above_shuffle_false`. -/
  | netCoalesce {tc p N num c T P E} : 0 < N → p = P * max (divCeil N T) 1 → c.kind.isHead = false → c.kind.isNet = false →
      Placed env N c ⟨P, none, false, E⟩ → Placed env T (.node (.netCoalesce p N num) tc [c]) ⟨p, none, false, E⟩
  /-- `NetworkBroadcastExec::try_new`, above a `BroadcastExec` -/
  | netBroadcast {tc tc' p N num x T E} : 0 < N → Placed env N x ⟨p, none, false, E⟩ →
      Placed env T (.node (.netBroadcast p N num) tc [.node (.broadcast 1) tc' [x]]) ⟨p, none, true, E⟩
  | forget {p T P d rep E} : Placed env T p ⟨P, d, rep, E⟩ → Placed env T p ⟨P, none, rep, E⟩
  | trivial {p h E} : Placed env 1 p ⟨1, none, false, E⟩ → Placed env 1 p ⟨1, some h, false, E⟩
  | repFlip {p P d rep rep' E} : Placed env 1 p ⟨P, d, rep, E⟩ → Placed env 1 p ⟨P, none, rep', E⟩
  | coarsen {p T P d rep E E'} : (∀ a b, E.eqv a b → E'.eqv a b) →
      Placed env T p ⟨P, d, rep, E⟩ → Placed env T p ⟨P, d, rep, E'⟩

end DD.Tree.Create
