import Verif.Model.Boundary
/- Event handler chains and default task routing. -/
namespace DD

/-- `EventHandlerChain`, `/repo/src/events/common.rs:4-25`. -/
structure HandlerChain (H : Type) where
  builtin : List H := []
  custom : List H := []

namespace HandlerChain

/-- Registration calls made on a session: `push_builtin`/`extend_builtin` (`/repo/src/events/common.rs:54-72`) and
`push_custom` (`:74-81`). Every call clones the chain and appends. -/
inductive Reg (H : Type) where
  | builtin (h : H)
  | custom (h : H)

/-- One registration call, `/repo/src/events/common.rs:53-82`. -/
def register {H} (c : HandlerChain H) : Reg H → HandlerChain H
  | .builtin h => { c with builtin := c.builtin ++ [h] }
  | .custom h => { c with custom := c.custom ++ [h] }

/-- The chain after a sequence of registrations. `/repo/src/events/common.rs:53-82`. -/
def ofRegs {H} (rs : List (Reg H)) : HandlerChain H := rs.foldl register {}

/-- `find_map`, `/repo/src/events/common.rs:32-39`: custom handlers first, then built-in ones. -/
def findMap {H T} (c : HandlerChain H) (f : H → Option T) : Option T :=
  match c.custom.findSome? f with
  | some r => some r
  | none => c.builtin.findSome? f

/-- `try_fold`, `/repo/src/events/common.rs:41-50`. -/
def tryFold {H T} (c : HandlerChain H) (v : T) (f : T → H → Except Err T) : Except Err T :=
  (c.custom ++ c.builtin).foldlM f v

end HandlerChain

/-! ### Default routing -/

/-- `random_routing`, `/repo/src/events/defaults/routing.rs:10-31`. `start` is the random start index, which the code
draws below `urls.length`. -/
def randomRouting {U} (urls : Except Err (List U)) (start taskCount : Nat) : Except Err (List U) :=
  match urls with
  | .error e => .error e
  | .ok [] => .error (.exec "0 URLs available during routing")
  | .ok (u :: us) => .ok ((List.range taskCount).map fun i => (u :: us)[(start + i) % (u :: us).length]'(Nat.mod_lt _ (by simp)))

/-- `single_task_coordinator_routing`, `/repo/src/events/defaults/routing.rs:34-44`. `self` is the URL of a coordinator
that also acts as a worker. -/
def coordinatorRouting {U} (self : Option U) (taskCount : Nat) : Option (List U) :=
  if taskCount ≠ 1 then none else self.map fun u => [u]

/-- `single_task_child_url_routing`, `/repo/src/events/defaults/routing.rs:48-74`. `children` lists the workers of the
input stages of the plan's network boundaries in traversal order (`none` when the stage is still local); the traversal
stops at the first remote stage with exactly one worker. -/
def childUrlRouting {U} (children : List (Option (List U))) (taskCount : Nat) : Option (List U) :=
  if taskCount ≠ 1 then none
  else children.findSome? fun
    | some [u] => some [u]
    | _ => none

/-- The three built-in handlers in registration order (`/repo/src/distributed_planner/session_state_builder_ext.rs:36-49`)
followed by the length check of `routed_urls` (`/repo/src/coordinator/query_coordinator.rs:398-416`).
`custom` are the answers of the user's handlers. -/
def routedUrls {U} (custom : List (Option (Except Err (List U)))) (self : Option U) (children : List (Option (List U)))
    (urls : Except Err (List U)) (start taskCount : Nat) : Except Err (List U) :=
  let chain : HandlerChain (Option (Except Err (List U))) :=
    { custom := custom
      builtin := [(coordinatorRouting self taskCount).map .ok, (childUrlRouting children taskCount).map .ok,
        some (randomRouting urls start taskCount)] }
  match chain.findMap id with
  | none => .error (.exec "No task routing handler was able to resolve URLs for stage")
  | some (.error e) => .error e
  | some (.ok us) => if us.length ≠ taskCount then .error (.exec "number of tasks was not equal to number of urls") else .ok us

end DD
