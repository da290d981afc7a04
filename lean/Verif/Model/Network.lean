/-
The stages of a running query and the streams between their tasks, with everything that makes one of them wait for another:
requests that are only made when a stream is first polled, bounded queues on the producer side, one response per connection that
carries the partitions of a whole range, and the byte budget of a connection on the consumer side; and with streams that are dropped
before their end and connections that fail.

Models how `/repo/src/protocol/grpc/worker_service.rs:134-184`, `/repo/src/protocol/grpc/spawn_select_all.rs:14-63`,
`/repo/src/protocol/grpc/worker_client.rs:89-320` and `/repo/src/protocol/in_process/worker_client.rs:42-50` work together in a
whole query. `Verif.Model.Demux` and `Verif.Model.SelectAll` model one connection in more detail.

What a task does with what it receives is DataFusion's business: which streams it is willing to read next (`wants`), what it sends
(`recv`), when one of its output partitions ends (`mayClose`) and which of its inputs it drops (`mayDrop`) are arbitrary functions;
theorems state what they ask of them.
Sizes and contents of messages are arbitrary, and some of them may be errors; operators that fail send one and stop. A worker that dies
fails the connections its consumers have to it and drops its inputs. A schedule is an arbitrary list or sequence of steps.
-/
import Verif.Model.Boundary

namespace DD.Net

/-- One partition of one task, as one consumer reads it: the task `writer` of a stage sends it to the task `reader` of the stage
above. `WorkerConnectionPool::execute`, `/repo/src/worker/worker_connection_pool.rs:46-169`, asks for all of those with the same
`reader` and `writer` at once: these are the streams of one connection. -/
structure Stream where
  writer : Nat
  reader : Nat
  partition : Nat
  deriving DecidableEq, Repr

/-- How a connection carries its streams.
Within a process (`/repo/src/protocol/in_process/worker_client.rs:42-50`) or over gRPC (`/repo/src/protocol/grpc/worker_client.rs:89-320`). -/
inductive Link where
  /-- over gRPC: the queue of the forwarding task of a partition (`spawn_select_all.rs:29`), the messages under way (flow control of
  HTTP/2, external) and the byte budget of the consumer (`worker_client.rs:97`, `:188-195`) -/
  | remote (queue window budget : Nat)
  /-- within the process: the stream itself is handed over -/
  | local
  deriving Repr

/-- A connection over gRPC. -/
def Link.isRemote : Link → Bool
  | .remote .. => true
  | .local => false

/-- State of a running query.
The queues of `spawn_select_all.rs:14-63` and `worker_client.rs:128-158`, for every stream and connection of the query. -/
structure State (S α σ : Type) where
  /-- whatever the operators of all tasks remember -/
  mem : σ
  /-- what the writer of a stream has computed for it but could not send yet -/
  pend : S → Stream → List α
  /-- the writer ended the stream -/
  done : S → Stream → Bool
  /-- the request of a connection was made; by reader and writer -/
  asked : S → Nat → Nat → Bool
  /-- queues of the forwarding tasks -/
  fwd : S → Stream → List α
  /-- messages of a response under way, by reader and writer -/
  wire : S → Nat → Nat → List (Stream × α)
  /-- received and not read -/
  queue : S → Stream → List α
  /-- the reader has seen the end of the stream, or has dropped it -/
  eof : S → Stream → Bool
  /-- the reader has dropped the stream -/
  gone : S → Stream → Bool
  /-- bytes of messages that were in the queue of a stream when it was dropped: nobody gives them back (worker_client.rs:289-295 only
  does so when a message is read); by reader and writer -/
  leak : S → Nat → Nat → Nat
  /-- the response of a connection failed; by reader and writer -/
  failed : S → Nat → Nat → Bool
  /-- what the writer computed for the stream before it ended, and what the reader got from it (not in the code: for what is said about
  executions) -/
  made : S → Stream → List α
  got : S → Stream → List α

/-- A query. The stage `s` is read by the tasks of stage `parent s`; the head stage `root` runs on the coordinator.
Stages: `/repo/src/stage.rs:74-117`. -/
structure Net (S α σ : Type) where
  stages : List S
  root : S
  parent : S → S
  /-- distance from the head stage -/
  depth : S → Nat
  /-- the streams the tasks of a stage send -/
  streams : S → List Stream
  /-- link of the connection between a reader and a writer -/
  link : S → Nat → Nat → Link
  size : α → Nat
  /-- the error that is read when a connection fails -/
  error : S → Nat → Nat → α
  mem : σ
  /-- what tasks send without having received anything: the rows of leaves -/
  first : S → Stream → List α
  /-- what the reader of a stream does with a message, or with the end of the stream: the messages it computes for the streams its own
  task sends -/
  recv : σ → S → Stream → Option α → σ × (Stream → List α)
  /-- the reader of a stream is willing to poll it -/
  wants : State S α σ → S → Stream → Bool
  /-- the writer of a stream has nothing more to send and may end it -/
  mayClose : State S α σ → S → Stream → Bool
  /-- the reader of a stream is about to drop it -/
  mayDrop : State S α σ → S → Stream → Bool

/-- What can happen. `ask`, `take` and `eof` are polls of the reader of a stream, `drop` is the reader dropping it, `push` and `close` are
the forwarding task of the writer, `send` is the merged response and `carry` the background task of the consumer; `fail` is a response, or
the request itself, that fails. `spawn_select_all.rs:14-63`, `worker_client.rs:159-320`. -/
inductive Step (S : Type) where
  | ask (s : S) (d : Stream)
  | take (s : S) (d : Stream)
  | eof (s : S) (d : Stream)
  | drop (s : S) (d : Stream)
  | push (s : S) (d : Stream)
  | close (s : S) (d : Stream)
  | send (s : S) (d : Stream)
  | carry (s : S) (reader writer : Nat)
  | fail (s : S) (reader writer : Nat)
  deriving DecidableEq, Repr

variable {S α σ : Type} [DecidableEq S]

/-- Replace what belongs to one stream of one stage.
Not a function of the code, where every stream has its own queue (`worker_client.rs:128-158`). -/
def set {β : Type} (f : S → Stream → β) (s : S) (d : Stream) (x : β) : S → Stream → β :=
  fun s' d' => if s' = s ∧ d' = d then x else f s' d'

/-- Replace what belongs to one connection.
Not a function of the code, where every connection has its own task (`worker_client.rs:159-275`). -/
def setConn {β : Type} (f : S → Nat → Nat → β) (s : S) (r w : Nat) (x : β) : S → Nat → Nat → β :=
  fun s' r' w' => if s' = s ∧ r' = r ∧ w' = w then x else f s' r' w'

namespace Net
variable (n : Net S α σ)

/-- Before the client polls: nothing was asked for (`worker_connection_pool.rs:46-145` asks on the first poll). -/
def start : State S α σ where
  mem := n.mem
  pend := n.first
  done := fun _ _ => false
  asked := fun _ _ _ => false
  fwd := fun _ _ => []
  wire := fun _ _ _ => []
  queue := fun _ _ => []
  eof := fun _ _ => false
  gone := fun _ _ => false
  leak := fun _ _ _ => 0
  failed := fun _ _ _ => false
  made := n.first
  got := fun _ _ => []

/-- A stream between two tasks of this query. `worker_connection_pool.rs:46-145`, over all boundaries. -/
def isStream (s : S) (d : Stream) : Bool := decide (s ∈ n.stages) && decide (s ≠ n.root) && decide (d ∈ n.streams s)

/-- A task runs once one of the partitions it sends was asked for; the head stage runs from the beginning.
`/repo/src/protocol/grpc/worker_service.rs:134-184`: the plan of a task is executed by `execute_task`. -/
def active (st : State S α σ) (s : S) (t : Nat) : Bool :=
  decide (s = n.root) || (n.streams s).any fun d => decide (d.writer = t) && st.asked s d.reader t

/-- The reader of a stream polls it. The operators above a boundary poll its streams (DataFusion). -/
def reads (st : State S α σ) (s : S) (d : Stream) : Bool :=
  n.isStream s d && !st.eof s d && n.active st (n.parent s) d.reader && n.wants st s d

/-- The streams of a connection. The partitions of one request, `worker_connection_pool.rs:46-145`. -/
def conn (s : S) (r w : Nat) : List Stream := (n.streams s).filter fun d => d.reader == r && d.writer == w

/-- `memory_reservation.size()`: the bytes received over a connection and not read, worker_client.rs:257-270, :289-295. -/
def reserved (st : State S α σ) (s : S) (r w : Nat) : Nat :=
  st.leak s r w + ((n.conn s r w).map fun d => ((st.queue s d).map n.size).sum).sum

/-- The response has ended: `spawn_select_all.rs:54-62` ends when every partition of the request has ended. -/
def closed (st : State S α σ) (s : S) (r w : Nat) : Bool :=
  (n.conn s r w).all fun d => st.done s d && (st.fwd s d).isEmpty

/-- The consumer sees the end of a stream: over gRPC when the whole response has ended and been read (worker_client.rs:196-203), within
the process when the stream itself has ended. -/
def ended (st : State S α σ) (s : S) (d : Stream) : Bool :=
  match n.link s d.reader d.writer with
  | .remote .. => n.closed st s d.reader d.writer && (st.wire s d.reader d.writer).isEmpty && (st.queue s d).isEmpty
  | .local => st.done s d && (st.queue s d).isEmpty

/-- The task that reads stream `d` of stage `s` received `x`. Messages for partitions that have ended are not sent.
What `poll_next` of a partition stream returned, `worker_client.rs:275-320`. -/
def receive (st : State S α σ) (s : S) (d : Stream) (x : Option α) : State S α σ :=
  let r := n.recv st.mem s d x
  let p := n.parent s
  { st with
    mem := r.1
    pend := fun s' d' => if s' = p ∧ d' ∈ n.streams p ∧ d'.writer = d.reader ∧ st.done p d' = false
      then st.pend s' d' ++ r.2 d' else st.pend s' d'
    made := fun s' d' => if s' = p ∧ d' ∈ n.streams p ∧ d'.writer = d.reader ∧ st.done p d' = false
      then st.made s' d' ++ r.2 d' else st.made s' d' }

/-- All streams of a connection were dropped: the request is cancelled, worker_client.rs:303-313, and with it everything its writer does
for it (C33). -/
def cancel (st : State S α σ) (s : S) (r w : Nat) : State S α σ := { st with
  pend := fun s' d => if s' = s ∧ d.reader = r ∧ d.writer = w then [] else st.pend s' d
  done := fun s' d => if s' = s ∧ d.reader = r ∧ d.writer = w then true else st.done s' d
  fwd := fun s' d => if s' = s ∧ d.reader = r ∧ d.writer = w then [] else st.fwd s' d
  wire := setConn st.wire s r w [] }

/-- The reader of a stream drops it. Within the process this ends it. Over gRPC its queue is lost, and the writer goes on until all streams
of the connection are dropped. The streams of a task that never runs, which are never opened, count as dropped. -/
def dropped (st : State S α σ) (s : S) (d : Stream) : State S α σ :=
  match n.link s d.reader d.writer with
  | .local => { st with
      eof := set st.eof s d true
      gone := set st.gone s d true
      queue := set st.queue s d []
      pend := set st.pend s d []
      done := set st.done s d true }
  | .remote .. =>
    let st := { st with
      eof := set st.eof s d true
      gone := set st.gone s d true
      queue := set st.queue s d []
      leak := setConn st.leak s d.reader d.writer (st.leak s d.reader d.writer + ((st.queue s d).map n.size).sum) }
    if (n.conn s d.reader d.writer).all fun d' => st.eof s d' then cancel st s d.reader d.writer else st

/-- The response of a connection fails: what was not received is lost, the writer is cancelled, and the readers of all streams of the
connection that were not dropped find the error after what was received, `fanout`, worker_client.rs:181-184, :206, :217-219, :550-554. -/
def broken (st : State S α σ) (s : S) (r w : Nat) : State S α σ := { st with
  pend := fun s' d => if s' = s ∧ d.reader = r ∧ d.writer = w then [] else st.pend s' d
  done := fun s' d => if s' = s ∧ d.reader = r ∧ d.writer = w then true else st.done s' d
  fwd := fun s' d => if s' = s ∧ d.reader = r ∧ d.writer = w then [] else st.fwd s' d
  wire := setConn st.wire s r w []
  queue := fun s' d => if s' = s ∧ d ∈ n.conn s r w ∧ st.gone s d = false then st.queue s' d ++ [n.error s r w] else st.queue s' d
  failed := setConn st.failed s r w true }

/-- A connection whose request was made can fail while somebody reads it, unless its end was seen.
An external failure: the transport of `worker_client.rs:160-184`. -/
def mayFail (st : State S α σ) (s : S) (r w : Nat) : Bool :=
  (n.link s r w).isRemote && st.asked s r w && !st.failed s r w
    && ((n.conn s r w).any fun d => n.isStream s d && !st.eof s d) && (n.conn s r w).all fun d => !st.eof s d || st.gone s d

/-- One step; a step that is not possible changes nothing. Each case cites its lines. -/
def step (st : State S α σ) : Step S → State S α σ
  -- first poll of a partition of a connection, worker_client.rs:160-176, :286-288
  | .ask s d =>
    if n.reads st s d && !st.asked s d.reader d.writer then
      { st with asked := setConn st.asked s d.reader d.writer true }
    else st
  -- a poll that returns a batch, worker_client.rs:285-301
  | .take s d =>
    if n.reads st s d then match st.queue s d with
      | a :: rest => n.receive { st with queue := set st.queue s d rest, got := set st.got s d (st.got s d ++ [a]) } s d (some a)
      | [] => st
    else st
  -- a poll that returns `None`
  | .eof s d =>
    if n.reads st s d && n.ended st s d then
      n.receive { st with eof := set st.eof s d true } s d none
    else st
  | .drop s d => if n.isStream s d && !st.eof s d && n.mayDrop st s d then n.dropped st s d else st
  -- spawn_select_all.rs:34-50, or a poll of the stream itself
  | .push s d =>
    if n.isStream s d && st.asked s d.reader d.writer then match st.pend s d, n.link s d.reader d.writer with
      | a :: rest, .remote q _ _ =>
        if (st.fwd s d).length < q then
          { st with pend := set st.pend s d rest, fwd := set st.fwd s d (st.fwd s d ++ [a]) }
        else st
      | a :: rest, .local =>
        if st.queue s d = [] then { st with pend := set st.pend s d rest, queue := set st.queue s d [a] } else st
      | [], _ => st
    else st
  | .close s d =>
    if n.isStream s d && st.asked s d.reader d.writer && !st.done s d && (st.pend s d).isEmpty && n.mayClose st s d then
      { st with done := set st.done s d true }
    else st
  -- spawn_select_all.rs:54-62, worker_service.rs:176-184
  | .send s d =>
    if n.isStream s d then match st.fwd s d, n.link s d.reader d.writer with
      | a :: rest, .remote _ w _ =>
        if (st.wire s d.reader d.writer).length < w then
          { st with fwd := set st.fwd s d rest
                    wire := setConn st.wire s d.reader d.writer (st.wire s d.reader d.writer ++ [(d, a)]) }
        else st
      | _, _ => st
    else st
  -- one iteration of the background task, worker_client.rs:188-272; messages for a stream that was dropped are thrown away, :263-270
  | .carry s r w => match n.link s r w, st.wire s r w with
    | .remote _ _ budget, (d, a) :: rest =>
      if n.reserved st s r w < budget then
        if st.gone s d then { st with wire := setConn st.wire s r w rest }
        else { st with wire := setConn st.wire s r w rest, queue := set st.queue s d (st.queue s d ++ [a]) }
      else st
    | _, _ => st
  | .fail s r w => if n.mayFail st s r w then n.broken st s r w else st

/-- A schedule: any list of steps (`spawn_select_all.rs:14-63`, `worker_client.rs:159-320`). -/
def run (steps : List (Step S)) : State S α σ := steps.foldl n.step n.start

/-- The state after the first `t` steps of an infinite schedule. `spawn_select_all.rs:14-63`, `worker_client.rs:159-320`. -/
def runFor (sched : Nat → Step S) : Nat → State S α σ
  | 0 => n.start
  | t + 1 => n.step (runFor sched t) (sched t)

end Net

end DD.Net
