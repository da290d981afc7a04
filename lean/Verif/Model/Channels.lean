import Verif.Model.Boundary
/-
How a worker is reached. Models `/repo/src/protocol/grpc/channel_resolver.rs:36-100` (the cache of connections),
`/repo/src/protocol/channel_resolver.rs:53-74` (which resolver is used) and the choice between the in-process worker and a
connection in `/repo/src/coordinator/query_coordinator.rs:193-203` and `/repo/src/worker/worker_connection_pool.rs:95-104`.

A history is an arbitrary list of steps of any number of concurrent callers. The moka cache is taken at its word:
`get_with_by_ref` and `invalidate` are atomic, an entry may be evicted at any moment (idle time and capacity), and the closure
runs only when the entry is missing. A `Shared` future is polled by its callers; the poll that completes it and every later one
get the same output. Not modelled: wakers (a caller may be polled at any moment), what connecting does, reconnects inside a
tonic channel, and the text of errors.
-/
namespace DD.Channels

variable {Url : Type} [DecidableEq Url]

/-- One `Shared` connection future, `channel_resolver.rs:65-91`: the URL it connects to and, once some poll completed it,
whether it connected. -/
structure Attempt (Url : Type) where
  url : Url
  result : Option Bool := none
  deriving Repr, DecidableEq

/-- Where a `get_channel` call stands. `/repo/src/protocol/grpc/channel_resolver.rs:65-100`. -/
inductive Phase where
  /-- awaiting the shared future, `channel_resolver.rs:94` -/
  | waiting
  /-- the future gave an error and the closure of `map_err` has not run yet, `channel_resolver.rs:95` -/
  | failing
  /-- the call has returned: a channel, or an error -/
  | returned (connected : Bool)
  /-- the caller dropped the future while it was waiting -/
  | dropped
  deriving Repr, DecidableEq

/-- One `get_channel` call: its argument, the shared future it got from the cache and its phase.
`/repo/src/protocol/grpc/channel_resolver.rs:65-100`. -/
structure Call (Url : Type) where
  url : Url
  attempt : Nat
  phase : Phase := .waiting
  deriving Repr, DecidableEq

/-- A `DefaultChannelResolver`, with all the connection futures it ever made and all calls ever made to it. -/
structure State (Url : Type) where
  cache : Url → Option Nat := fun _ => none
  attempts : List (Attempt Url) := []
  calls : List (Call Url) := []

/-- What callers of `get_channel` and the cache do, `/repo/src/protocol/grpc/channel_resolver.rs:47-100`. -/
inductive Step (Url : Type) where
  /-- `get_channel(url)` up to its await -/
  | call (url : Url)
  /-- the call's future is polled; `answer` is what the network says if this poll drives the connection -/
  | poll (call : Nat) (answer : Option Bool)
  /-- the `map_err` closure of a failed call runs and the call returns -/
  | finish (call : Nat)
  /-- the caller gives up -/
  | drop (call : Nat)
  /-- the cache evicts an entry -/
  | evict (url : Url)
  deriving Repr, DecidableEq

/-- Writes one entry of the cache. The moka cache of `/repo/src/protocol/grpc/channel_resolver.rs:43-60`. -/
def setCache (cache : Url → Option Nat) (url : Url) (v : Option Nat) : Url → Option Nat :=
  fun u => if u = url then v else cache u

/-- `get_with_by_ref`, `channel_resolver.rs:65-92`: the cached future, or a new one. -/
def getChannel (s : State Url) (url : Url) : State Url :=
  match s.cache url with
  | some a => { s with calls := s.calls ++ [{ url, attempt := a }] }
  | none =>
    { cache := setCache s.cache url (some s.attempts.length)
      attempts := s.attempts ++ [{ url }]
      calls := s.calls ++ [{ url, attempt := s.attempts.length }] }

/-- The output of a shared future when it is polled: its stored result, or what the network answers now.
`futures::future::Shared`, used at `/repo/src/protocol/grpc/channel_resolver.rs:66-94`. -/
def output (a : Attempt Url) (answer : Option Bool) : Option Bool := a.result.or answer

/-- `channel.await`, `channel_resolver.rs:94`: a success is returned at once, an error goes to `map_err`. -/
def pollCall (s : State Url) (c : Nat) (answer : Option Bool) : State Url :=
  match s.calls[c]? with
  | some { url, attempt, phase := .waiting } =>
    match s.attempts[attempt]? with
    | none => s
    | some a =>
      let r := output a answer
      let phase := match r with
        | none => Phase.waiting
        | some true => .returned true
        | some false => .failing
      { s with attempts := s.attempts.set attempt { a with result := r }
               calls := s.calls.set c { url, attempt, phase } }
  | _ => s

/-- `map_err`, `channel_resolver.rs:94-97`: whatever is cached for the URL is invalidated and the error returned. -/
def finishCall (s : State Url) (c : Nat) : State Url :=
  match s.calls[c]? with
  | some { url, attempt, phase := .failing } =>
    { s with cache := setCache s.cache url none, calls := s.calls.set c { url, attempt, phase := .returned false } }
  | _ => s

/-- Dropping the future of a call that is waiting. The closure of `map_err` runs in the poll that saw the error, so a failing
call cannot be dropped. The caller gives up while awaiting, `/repo/src/protocol/grpc/channel_resolver.rs:94`. -/
def dropCall (s : State Url) (c : Nat) : State Url :=
  match s.calls[c]? with
  | some { url, attempt, phase := .waiting } => { s with calls := s.calls.set c { url, attempt, phase := .dropped } }
  | _ => s

/-- One step of a history, see `getChannel`, `pollCall`, `finishCall` and `dropCall` (`/repo/src/protocol/grpc/channel_resolver.rs:65-100`). -/
def step (s : State Url) : Step Url → State Url
  | .call url => getChannel s url
  | .poll c answer => pollCall s c answer
  | .finish c => finishCall s c
  | .drop c => dropCall s c
  | .evict url => { s with cache := setCache s.cache url none }

/-- A history from a given state (`/repo/src/protocol/grpc/channel_resolver.rs:65-100`). -/
def runFrom (s : State Url) (l : List (Step Url)) : State Url := l.foldl step s

/-- A history of a fresh resolver, `channel_resolver.rs:46-60`. -/
def run (l : List (Step Url)) : State Url := runFrom {} l

/-- Who answers a request.
`/repo/src/coordinator/query_coordinator.rs:193-203`, `/repo/src/worker/worker_connection_pool.rs:95-104`. -/
inductive Target (Worker : Type) where
  /-- in this process, without any connection -/
  | inProcess (w : Worker)
  /-- over a channel given by the session's own resolver, or by the default one -/
  | remote (user : Bool)
  deriving Repr, DecidableEq

/-- What a session knows about reaching workers: its own worker and the URL it goes by, `local_worker_context.rs:12-19`, and
whether a channel resolver was set, `protocol/channel_resolver.rs:43-51`. -/
structure Ctx (Url Worker : Type) where
  localWorker : Option (Url × Worker) := none
  userResolver : Bool := false

/-- `query_coordinator.rs:193-203`, `worker_connection_pool.rs:95-104` with `get_distributed_channel_resolver`,
`protocol/channel_resolver.rs:53-68`. -/
def Ctx.reach {Worker : Type} (ctx : Ctx Url Worker) (url : Url) : Target Worker :=
  match ctx.localWorker with
  | some (self, w) => if self = url then .inProcess w else .remote ctx.userResolver
  | none => .remote ctx.userResolver

/-- The worker that ends up with a request sent through `ctx`, when the network delivers `url` to `net user url`.
`/repo/src/coordinator/query_coordinator.rs:193-203`, `/repo/src/worker/worker_connection_pool.rs:95-104`. -/
def Ctx.delivers {Worker : Type} (net : Bool → Url → Worker) (ctx : Ctx Url Worker) (url : Url) : Worker :=
  match ctx.reach url with
  | .inProcess w => w
  | .remote user => net user url

/-- The context in which the tasks sent to worker `w` under `url` run: `impl_coordinator_channel.rs:52-55`. The resolver is
whatever the worker's session builder sets. -/
def workerCtx {Worker : Type} (w : Worker) (url : Url) (userResolver : Bool) : Ctx Url Worker :=
  { localWorker := some (url, w), userResolver }

end DD.Channels
