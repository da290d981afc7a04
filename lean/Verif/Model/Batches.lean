/-
Record batches on the wire.

Models what a worker does with the batches of a partition before it sends them, `build_flight_data_stream` and
`garbage_collect_arrays` (`/repo/src/protocol/grpc/worker_service.rs:363-433`), and how a consumer gets batches back, one
`FlightRecordBatchStream` per partition (`/repo/src/protocol/grpc/worker_client.rs:301-303`). What lies between, merging the
streams of the partitions and taking them apart again, is `Model/SelectAll.lean` and `Model/Demux.lean`.

The encoder and the decoder are arrow-flight's (`FlightDataEncoder`, `FlightRecordBatchStream`, arrow-ipc's
`DictionaryTracker`) and the two garbage collections are arrow-select's and arrow-array's; their source is not in the
repository. The model says what they do as far as it matters: dictionaries go over the wire once, before the first batch that
uses them, under a number that stands for the position of their column.

Simplifications: bytes of arrays that have no dictionary and no views are not looked at (`plain`); the values of a dictionary
have no dictionaries themselves; offsets of lists and unions are written as positions. Compression changes no message (`Model/WorkerSession.lean`
models which one is used).
-/
import Verif.Model.Boundary

namespace DD.Batches

/-- The bytes of a string or binary value. Arrow's `Utf8` and `Binary` (arrow, not in the repository). -/
abbrev Atom := List Nat

/-- The values of a dictionary. arrow, not in the repository. -/
abbrev Dict := List (Option Atom)

/-- A value as a user sees it. arrow, not in the repository. -/
inductive Val where
  | atom (a : Option Atom)
  | row (fields : List Val)
  /-- a list; a map is a list of rows of two fields -/
  | seq (vals : List Val)
  /-- a value of a union, with the type it has -/
  | case (tag : Nat) (v : Val)

/-- An element of a `StringView` or `BinaryView` array: short ones are held in the view, others are in a buffer. -/
inductive Slot where
  | inline (bytes : Atom)
  | ref (buffer offset length : Nat)
  deriving DecidableEq

/-- The bytes a view stands for. arrow, not in the repository. -/
def Slot.read (bufs : List Atom) : Slot → Atom
  | .inline b => b
  | .ref i o l => ((bufs.getD i []).drop o).take l

/-- An arrow array, as held in memory. -/
inductive Col where
  /-- an array without dictionary and views -/
  | plain (vals : List Val)
  /-- `DictionaryArray`: `none` is null -/
  | dict (keys : List (Option Nat)) (values : Dict)
  /-- `StringViewArray`, `BinaryViewArray` -/
  | view (slots : List (Option Slot)) (bufs : List Atom)
  /-- `StructArray` -/
  | struct (rows : Nat) (fields : List Col)
  /-- `ListArray`, `LargeListArray`, `FixedSizeListArray`, `ListViewArray`, `MapArray`: where each list starts in the array of the
  elements and how long it is; `none` is null -/
  | list (ranges : List (Option (Nat × Nat))) (elements : Col)
  /-- `UnionArray`: for each row its type and the place in the array of the values of that type. `RunArray` is the case of a
  single type. -/
  | union (rows : List (Nat × Nat)) (types : List Col)

/-- `RecordBatch`; the number of rows is its own field, a batch may have no columns. -/
structure Batch where
  rows : Nat
  cols : List Col

/-! ### Before sending -/

/-- `garbage_collect_any_dictionary` (arrow-select): values no key refers to are left out, keys are renumbered. -/
def gcDict (keys : List (Option Nat)) (values : Dict) : List (Option Nat) × Dict :=
  let used (i : Nat) : Bool := keys.contains (some i)
  (keys.map (Option.map fun k => ((List.range k).filter used).length),
    (values.zipIdx.filter fun v => used v.2).map (·.1))

/-- `GenericByteViewArray::gc` (arrow-array): the bytes views refer to are copied into a new buffer. -/
def gcView (bufs : List Atom) : List (Option Slot) → Atom → List (Option Slot) × Atom
  | [], acc => ([], acc)
  | none :: rest, acc => let r := gcView bufs rest acc; (none :: r.1, r.2)
  | some (.inline b) :: rest, acc => let r := gcView bufs rest acc; (some (.inline b) :: r.1, r.2)
  | some (.ref i o l) :: rest, acc =>
    let r := gcView bufs rest (acc ++ Slot.read bufs (.ref i o l))
    (some (.ref 0 acc.length l) :: r.1, r.2)

/-- The closure of `garbage_collect_arrays`, worker_service.rs:411-424: only the columns themselves, not arrays inside them. -/
def gcCol : Col → Col
  | .dict keys values => let r := gcDict keys values; .dict r.1 r.2
  | .view slots bufs => let r := gcView bufs slots []; .view r.1 [r.2]
  | c => c

/-- `garbage_collect_arrays`, worker_service.rs:400-433. -/
def garbageCollect (b : Batch) : Batch := ⟨b.rows, b.cols.map gcCol⟩

/-! ### The wire -/

/-- An array without its dictionaries. arrow-ipc, not in the repository. -/
inductive Body where
  | plain (vals : List Val)
  | keys (keys : List (Option Nat))
  | view (slots : List (Option Slot)) (bufs : List Atom)
  | struct (rows : Nat) (fields : List Body)
  | list (ranges : List (Option (Nat × Nat))) (elements : Body)
  | union (rows : List (Nat × Nat)) (types : List Body)

/-- A `FlightData` message. -/
inductive Msg (Sch : Type) where
  | schema (s : Sch)
  | dictionary (id : Nat) (values : Dict)
  | batch (rows : Nat) (cols : List Body)

mutual
/-- The dictionaries of an array, in the order of their columns. `encode_dictionaries` (arrow-ipc), not in the repository. -/
def Col.dicts : Col → List Dict
  | .plain _ => []
  | .dict _ values => [values]
  | .view _ _ => []
  | .struct _ fields => dictsAll fields
  | .list _ elements => elements.dicts
  | .union _ types => dictsAll types
/-- `Col.dicts` on every column (arrow-ipc). -/
def dictsAll : List Col → List Dict
  | [] => []
  | c :: cs => c.dicts ++ dictsAll cs
end

mutual
/-- What a batch message holds of an array. arrow-ipc, not in the repository. -/
def Col.body : Col → Body
  | .plain vals => .plain vals
  | .dict keys _ => .keys keys
  | .view slots bufs => .view slots bufs
  | .struct rows fields => .struct rows (bodyAll fields)
  | .list ranges elements => .list ranges elements.body
  | .union rows types => .union rows (bodyAll types)
/-- `Col.body` on every column (arrow-ipc). -/
def bodyAll : List Col → List Body
  | [] => []
  | c :: cs => c.body :: bodyAll cs
end

/-- Which dictionary was sent last for each column (`DictionaryTracker`, arrow-ipc). -/
abbrev Known := Nat → Option Dict

/-- `DictionaryTracker::insert` (arrow-ipc). -/
def Known.set (k : Known) (i : Nat) (d : Dict) : Known := fun j => if j = i then some d else k j

/-- The dictionaries of a batch that have to be sent (`DictionaryHandling::Resend`, worker_service.rs:387): those that are not
the ones sent last. -/
def sendDicts (k : Known) : List Dict → Nat → Known × List (Nat × Dict)
  | [], _ => (k, [])
  | d :: ds, i =>
    if k i = some d then sendDicts k ds (i + 1)
    else let r := sendDicts (k.set i d) ds (i + 1); (r.1, (i, d) :: r.2)

/-- The messages for one batch. `with_max_flight_data_size(usize::MAX)`, worker_service.rs:396: a batch is never split; a batch
without rows is not sent (`split_batch_for_grpc_response`, arrow-flight). -/
def encodeBatch {Sch : Type} (k : Known) (b : Batch) : Known × List (Msg Sch) :=
  if b.rows = 0 then (k, [])
  else
    let r := sendDicts k (dictsAll b.cols) 0
    (r.1, r.2.map (fun m => .dictionary m.1 m.2) ++ [.batch b.rows (bodyAll b.cols)])

/-- The messages after the schema. A stream ends at its first error.
`/repo/src/protocol/grpc/worker_service.rs:391-398`: garbage collection of each batch, then arrow-flight. -/
def encodeFrom {Sch : Type} (k : Known) : List (Except Err Batch) → List (Except Err (Msg Sch))
  | [] => []
  | .error e :: _ => [.error e]
  | .ok b :: bs =>
    let r := encodeBatch k (garbageCollect b)
    r.2.map .ok ++ encodeFrom r.1 bs

/-- `build_flight_data_stream`, worker_service.rs:363-399. The worker has a setting for the size of messages
(`Worker::with_max_message_size`, `/repo/src/worker/worker_service.rs:61-74`), which nothing reads. -/
def encode {Sch : Type} (_maxMessageSize : Option Nat) (s : Sch) (batches : List (Except Err Batch)) : List (Except Err (Msg Sch)) :=
  .ok (.schema s) :: encodeFrom (fun _ => none) batches

/-! ### The consumer -/

mutual
/-- Reads an array: the dictionaries are looked up under the numbers of their columns. Returns the next number.
`RecordBatchDecoder` (arrow-ipc), not in the repository. -/
def Body.read (k : Known) : Body → Nat → Option (Col × Nat)
  | .plain vals, i => some (.plain vals, i)
  | .keys keys, i => match k i with
    | some d => some (.dict keys d, i + 1)
    | none => none
  | .view slots bufs, i => some (.view slots bufs, i)
  | .struct rows fields, i => match readAll k fields i with
    | some (cs, i') => some (.struct rows cs, i')
    | none => none
  | .list ranges elements, i => match elements.read k i with
    | some (c, i') => some (.list ranges c, i')
    | none => none
  | .union rows types, i => match readAll k types i with
    | some (cs, i') => some (.union rows cs, i')
    | none => none
/-- `Body.read` on every column (arrow-ipc). -/
def readAll (k : Known) : List Body → Nat → Option (List Col × Nat)
  | [], i => some ([], i)
  | b :: bs, i => match b.read k i with
    | none => none
    | some (c, i') => match readAll k bs i' with
      | none => none
      | some (cs, i'') => some (c :: cs, i'')
end

/-- The state of a `FlightRecordBatchStream` (arrow-flight): the schema and the dictionaries received. -/
structure Decoder (Sch : Type) where
  schema : Option Sch := none
  dicts : Known := fun _ => none

/-- The batches of one partition, worker_client.rs:301-303. Ends at the first error. -/
def decode {Sch : Type} (st : Decoder Sch) : List (Except Err (Msg Sch)) → List (Except Err (Sch × Batch))
  | [] => []
  | .error e :: _ => [.error e]
  | .ok m :: rest => match st.schema, m with
    | none, .schema s => decode { schema := some s } rest
    | some _, .schema _ => [.error (.exec "Unexpectedly saw multiple Schema messages")]
    | none, .dictionary _ _ => [.error (.exec "Received DictionaryBatch prior to Schema")]
    | some s, .dictionary i d => decode { schema := some s, dicts := st.dicts.set i d } rest
    | none, .batch _ _ => [.error (.exec "Received RecordBatch prior to Schema")]
    | some s, .batch rows cols => match readAll st.dicts cols 0 with
      | none => [.error (.exec "Cannot find a dictionary batch")]
      | some (cs, _) => .ok (s, ⟨rows, cs⟩) :: decode st rest

end DD.Batches
