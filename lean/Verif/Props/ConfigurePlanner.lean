import Verif.Props.Configure
import Verif.Props.Create
/-
C81: what the query planner of a session does if `with_distributed_planner` is called more than once.
-/
namespace DD.Tree.Create

open Configure

variable {Row : Type} {env : Env Row} {fuel : Nat}

theorem layered_one {P ε : Type} (create : P → Except ε P) (p : P) : layered create (.ok p) 1 = create p := rfl

theorem layered_fixed {P ε : Type} {create : P → Except ε P} {base : Except ε P} {q : P} (h : layered create base 1 = .ok q)
    (hq : create q = .ok q) : ∀ n, 0 < n → layered create base n = .ok q := by
  intro n
  induction n with
  | zero => intro h; cases h
  | succ n ih =>
    intro _
    cases n with
    | zero => exact h
    | succ n =>
      rw [layered, ih (Nat.succ_pos _)]
      exact hq

theorem layered_error {P ε : Type} {create : P → Except ε P} {base : Except ε P} {e : ε} (h : layered create base 1 = .error e) :
    ∀ n, 0 < n → layered create base n = .error e := by
  intro n
  induction n with
  | zero => intro h; cases h
  | succ n ih =>
    intro _
    cases n with
    | zero => exact h
    | succ n =>
      rw [layered, ih (Nat.succ_pos _)]
      rfl

/-- **C81** (planner) However often `with_distributed_planner` was called on a session, if at all, a query is planned as if it had
been called once. -/
theorem C81_planner_queries_once {dyn : Bool} {p : Plan Row} (hn : hasNet p = false) (n : Nat) (hpos : 0 < n) :
    layered (create env dyn fuel) (.ok (.plan p)) n = create env dyn fuel (.plan p) := by
  cases h : create env dyn fuel (.plan p) with
  | ok q => exact layered_fixed (create := create env dyn fuel) (base := .ok (.plan p)) h (C23_planning_again hn h) n hpos
  | error e => exact layered_error (create := create env dyn fuel) (base := .ok (.plan p)) h n hpos

/-- **C81 fails for `EXPLAIN ANALYZE`.** With `with_distributed_planner` called twice, an `EXPLAIN ANALYZE` of a query that is
distributed is not planned as with one call: either all boundaries are taken away, or executing it fails, however tasks are
routed. -/
theorem C81_planner_twice_analyze_false {p p1 : Plan Row} {dyn : Bool} {q : Phys Row} (hn : hasNet p1 = true)
    (h1 : create env dyn fuel (.plan p) = .ok (.distributed (.plan p1)))
    (h2 : layered (create env dyn fuel) (.ok (.analyze (.plan p))) 2 = .ok q) :
    layered (create env dyn fuel) (.ok (.analyze (.plan p))) 1 = .ok (.distAnalyze (.distributed (.plan p1)))
      ∧ ∃ p', (q = .distAnalyze (.distributed (.plan p')) ∧ hasNet p' = false)
        ∨ (q = .distributed (.distAnalyze (.distributed (.plan p')))
          ∧ ∀ (U : Type) (route : Plan Row → Nat → Except Err (List U)) fuel r, execute route fuel 0 q ≠ .ok r) := by
  have e : layered (create env dyn fuel) (.ok (.analyze (.plan p))) 1 = .ok (.distAnalyze (.distributed (.plan p1))) := by
    rw [layered_one, create, h1]
    rfl
  refine ⟨e, ?_⟩
  rw [layered, e] at h2
  exact C23_analyze_again_false (dyn := dyn) hn h2

/-- Non-vacuity: the join is distributed, and with two calls its `EXPLAIN ANALYZE` is wrapped twice. -/
example : ∃ p1 p', create Demo.sess false 12 (.plan Demo.input) = .ok (.distributed (.plan p1)) ∧ hasNet p1 = true
    ∧ layered (create Demo.sess false 12) (.ok (.analyze (.plan Demo.input))) 2 = .ok (.distributed (.distAnalyze (.distributed (.plan p'))))
    ∧ hasNet Demo.input = false := by
  have h1 : (match create Demo.sess false 12 (.plan Demo.input) with
      | .ok (.distributed (.plan p)) => hasNet p
      | _ => false) = true := by decide +kernel
  have h2 : (match layered (create Demo.sess false 12) (.ok (.analyze (.plan Demo.input))) 2 with
      | .ok (.distributed (.distAnalyze (.distributed (.plan _)))) => true
      | _ => false) = true := by decide +kernel
  split at h1
  · rename_i p1 e1
    split at h2
    · rename_i p' e2
      exact ⟨p1, p', e1, h1, e2, by decide +kernel⟩
    · cases h2
  · cases h1

end DD.Tree.Create
