/-
The stage sampler used by dynamic planning.

Models `/repo/src/execution_plans/sampler.rs`: `PartitionSampler::kick_off` (211-290), `start_stream`
(182-209), `LoadInfoDropHandler` (292-371), `SamplerExec::execute` (553-568) and
`kick_off_first_sampler` (131-150).
-/
import Verif.Model.Boundary

namespace DD.Sampler

/-- One answer of the sampled stream to a poll. The stream is the list of its answers; after the last
one it answers `Ready(None)` for ever (`.fuse()`, sampler.rs:247). A panic of the input is not modelled:
in the sampling phase it becomes an internal error (sampler.rs:280-283), later it propagates. -/
inductive Poll (B : Type) where
  | pending
  | item (x : Except Err B)
  deriving Repr

/-- What a consumer of the stream sees: its items, in order. The convention of `futures::Stream` (external). -/
def items {B : Type} : List (Poll B) → List (Except Err B)
  | [] => []
  | .pending :: r => items r
  | .item x :: r => x :: items r

/-- Result of `ready_chunks(cap).next()`: the chunk, the answers the stream has left, and whether the
stream already answered `Ready(None)` (`is_terminated`). `futures` (external), as used at sampler.rs:211-290. -/
structure Chunk (B : Type) where
  chunk : List (Except Err B)
  rest : List (Poll B)
  terminated : Bool

/-- `futures::stream::ReadyChunks::poll_next` (external crate), as called at sampler.rs:253-256: waits
while nothing was collected, then collects items until the stream is not ready, `cap` items were
collected or the stream ends. `acc` is the chunk collected so far, in reverse. -/
def readyChunk {B : Type} (cap : Nat) (acc : List (Except Err B)) : List (Poll B) → Chunk B
  | [] => ⟨acc.reverse, [], true⟩
  | .pending :: r => if acc.isEmpty then readyChunk cap acc r else ⟨acc.reverse, .pending :: r, false⟩
  | .item x :: r =>
    if cap ≤ acc.length + 1 then ⟨(x :: acc).reverse, r, false⟩ else readyChunk cap (x :: acc) r

/-- `for batch in batches { peek.push(batch?) }`, sampler.rs:266-268. -/
def peekAll {B : Type} : List (Except Err B) → Except Err (List B)
  | [] => .ok []
  | .ok b :: r => (peekAll r).map (b :: ·)
  | .error e :: _ => .error e

/-- The parts of `LoadInfo` (sampler.rs:373-383) this model keeps. -/
structure LoadInfo where
  rowsReady : Nat
  reachedEos : Bool
  deriving Repr, DecidableEq

/-- The spawned sampling task, sampler.rs:249-277. Returns the stream handed to the consumer
(sampler.rs:279-288) and the report the `LoadInfoDropHandler` sends when dropped (sampler.rs:361-371):
the zero report if the task failed before `report`. `rows` is `RecordBatch::num_rows`. -/
def sample {B : Type} (rows : B → Nat) (cap : Nat) (polls : List (Poll B)) :
    List (Except Err B) × LoadInfo :=
  let c := readyChunk cap [] polls
  if c.chunk.isEmpty then (items c.rest, ⟨0, true⟩)
  else match peekAll c.chunk with
    | .error e => ([.error e], ⟨0, false⟩)
    | .ok peek => (peek.map .ok ++ items c.rest, ⟨(peek.map rows).sum, c.terminated⟩)

/-- `READY_CHUNK_LIMIT`, sampler.rs:35. -/
def readyChunkLimit : Nat := 1024 * 1024

/-! ### The node: kick off, then execute -/

/-- `SamplerExec` (sampler.rs:39-45) with its `partition_samplers[i].stream` cells. -/
structure Node (B : Type) where
  partitions : Nat
  stream : Nat → Option (List (Except Err B))

/-- `SamplerExec::new`, sampler.rs:97-129. -/
def Node.new {B : Type} (partitions : Nat) : Node B := ⟨partitions, fun _ => none⟩

/-- The two calls a node gets, sampler.rs:133-209, :554-567. -/
inductive Op where
  | kickOff                    -- `kick_off_first_sampler` on this node
  | execute (partition : Nat)
  deriving Repr, DecidableEq

/-- `kick_off_first_sampler` (every partition, in order; `input p` is what executing the input gives)
and `execute` (bounds check, then `start_stream` takes the stream out). sampler.rs:133-209, :554-567. -/
def Node.step {B : Type} (rows : B → Nat) (input : Nat → List (Poll B)) (n : Node B) :
    Op → Node B × Option (Except Err (List (Except Err B)))
  | .kickOff =>
    ({ n with stream := fun p =>
        if p < n.partitions then some (sample rows readyChunkLimit (input p)).1 else n.stream p }, none)
  | .execute p =>
    if n.partitions ≤ p then (n, some (.error (.exec "partition not available in SamplerExec")))
    else match n.stream p with
      | none => (n, some (.error (.exec "SamplerExec was not kicked off")))
      | some s => ({ n with stream := fun q => if q = p then none else n.stream q }, some (.ok s))

/-- The results of a history of calls, in order. sampler.rs:133-209, :554-567. -/
def Node.run {B : Type} (rows : B → Nat) (input : Nat → List (Poll B)) :
    Node B → List Op → List (Op × Option (Except Err (List (Except Err B))))
  | _, [] => []
  | n, o :: os => (o, (n.step rows input o).2) :: Node.run rows input (n.step rows input o).1 os

end DD.Sampler
