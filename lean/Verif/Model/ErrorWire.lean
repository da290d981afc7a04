/-
Errors travelling from a worker to whoever asked it.

Models `/repo/src/protocol/grpc/errors/*.rs`: the conversion of a `DataFusionError` into a protobuf message
(`from_*`), the conversion back (`to_*`), and the gRPC status that carries the message (`errors/mod.rs`).
The protobuf library (prost 0.14) is an external contract, see `wire`.

Simplifications: a boxed foreign error (`Box<dyn Error>`) is its text, except directly under
`DataFusionError::External`, where its concrete type is kept too; `usize` and `u64` are `Nat`;
`Column::spans` is a list of numbers; a `Diagnostic` is a number, `0` being `Diagnostic::new_error("", None)`.
-/
import Verif.Model.Boundary

namespace DD.ErrorWire

/-- `std::io::ErrorKind`. `unlisted` stands for every kind `io_error.rs` does not name. -/
inductive IoKind where
  | notFound
  | permissionDenied
  | connectionRefused
  | connectionReset
  | hostUnreachable
  | networkUnreachable
  | connectionAborted
  | notConnected
  | addrInUse
  | addrNotAvailable
  | networkDown
  | brokenPipe
  | alreadyExists
  | wouldBlock
  | notADirectory
  | isADirectory
  | directoryNotEmpty
  | readOnlyFilesystem
  | staleNetworkFileHandle
  | invalidInput
  | invalidData
  | timedOut
  | writeZero
  | storageFull
  | notSeekable
  | fileTooLarge
  | resourceBusy
  | executableFileBusy
  | deadlock
  | tooManyLinks
  | argumentListTooLong
  | interrupted
  | unsupported
  | unexpectedEof
  | outOfMemory
  | other
  | unlisted (n : Nat)
  deriving DecidableEq, Repr

/-- `std::io::Error`: its kind and its text. -/
structure IoErr where
  kind : IoKind
  text : String
  deriving DecidableEq, Repr

/-- `arrow::error::ArrowError`. -/
inductive ArrowErr where
  | notYetImplemented (m : String) | external (m : String) | cast (m : String) | memory (m : String)
  | parse (m : String) | schema (m : String) | compute (m : String) | divideByZero
  | arithmeticOverflow (m : String) | csv (m : String) | json (m : String) | io (m : String) (e : IoErr)
  | ipc (m : String) | invalidArgument (m : String) | parquet (m : String) | cData (m : String)
  | dictionaryKeyOverflow | runEndIndexOverflow | offsetOverflow (n : Nat) | avro (m : String)
  deriving DecidableEq, Repr

/-- `parquet::errors::ParquetError`; `unlisted`: the variants `parquet_error.rs` does not name. -/
inductive ParquetErr where
  | general (m : String) | nyi (m : String) | eof (m : String) | arrow (m : String)
  | indexOutOfBound (a b : Nat) | external (m : String) | needMoreData (n : Nat) | unlisted (n : Nat)
  deriving DecidableEq, Repr

/-- `object_store::Error`; `unlisted`: the variants `objectstore_error.rs` does not name. -/
inductive StoreErr where
  | generic (store source : String) | notFound (path source : String) | invalidPath (source : String)
  | join (source : String) | notSupported (source : String) | alreadyExists (path source : String)
  | precondition (path source : String) | notModified (path source : String)
  | notImplemented (operation implementer : String) | permissionDenied (path source : String)
  | unauthenticated (path source : String) | unknownConfigurationKey (key store : String)
  | unlisted (n : Nat)
  deriving DecidableEq, Repr

/-- `sqlparser::parser::ParserError`. sqlparser (external), as matched in `parser_error.rs`. -/
inductive ParserErr where
  | tokenizer (m : String) | parser (m : String) | recursionLimitExceeded
  deriving DecidableEq, Repr

/-- `datafusion::common::TableReference`. DataFusion, as matched in `schema_error.rs`. -/
inductive TableRef where
  | bare (table : String) | part (schema table : String) | full (catalog schema table : String)
  deriving DecidableEq, Repr

/-- `datafusion::common::Column`. DataFusion, as matched in `schema_error.rs`. -/
structure Column where
  relation : Option TableRef
  name : String
  spans : List Nat
  deriving DecidableEq, Repr

/-- `datafusion::common::SchemaError`. DataFusion, as matched in `schema_error.rs`. -/
inductive SchemaErr where
  | ambiguousReference (field : Column) | duplicateQualifiedField (qualifier : TableRef) (name : String)
  | duplicateUnqualifiedField (name : String) | fieldNotFound (field : Column) (valid : List Column)
  deriving DecidableEq, Repr

/-- The concrete type behind a `DataFusionError::External`: the error type this crate rebuilds
(datafusion_error.rs:288-299), a gRPC status with its code and message, a Flight error, any other. -/
inductive Foreign where
  | rebuilt | status (code : Nat) (message : String) | flight | other (n : Nat)
  deriving DecidableEq, Repr

/-- `datafusion::error::DataFusionError`. -/
inductive DfErr where
  | arrow (e : ArrowErr) (ctx : Option String)
  | parquet (e : ParquetErr)
  | store (e : StoreErr)
  | io (e : IoErr)
  | sql (e : ParserErr) (backtrace : Option String)
  | notImplemented (m : String) | internal (m : String) | plan (m : String) | configuration (m : String)
  | schema (e : SchemaErr) (backtrace : Option String)
  | execution (m : String) | executionJoin (m : String) | resourcesExhausted (m : String)
  | external (ty : Foreign) (text : String)
  | context (c : String) (e : DfErr)
  | substrait (m : String)
  | diagnostic (d : Nat) (e : DfErr)
  | collection (es : List DfErr)
  | shared (e : DfErr)
  | ffi (m : String)

/-! ## The protobuf messages -/

/-- io_error.rs:3-11. -/
structure IoProto where
  msg : String
  code : Int
  err : String
  deriving DecidableEq, Repr

/-- arrow_error.rs:16-57. -/
inductive ArrowInner where
  | notYetImplemented (m : String) | externalError (m : String) | castError (m : String)
  | memoryError (m : String) | parseError (m : String) | schemaError (m : String) | computeError (m : String)
  | divideByZero (b : Bool) | arithmeticOverflow (m : String) | csvError (m : String) | jsonError (m : String)
  | ioError (e : IoProto) | ipcError (m : String) | invalidArgumentError (m : String)
  | parquetError (m : String) | cDataInterface (m : String) | dictionaryKeyOverflowError (b : Bool)
  | runEndIndexOverflowError (b : Bool) | offsetOverflowError (n : Nat) | avroError (m : String)
  deriving DecidableEq, Repr

/-- arrow_error.rs:5-14. -/
structure ArrowProto where
  ctx : Option String
  inner : Option ArrowInner
  deriving DecidableEq, Repr

/-- parquet_error.rs:12-36. -/
inductive ParquetInner where
  | general (m : String) | nyi (m : String) | eof (m : String) | arrowError (m : String)
  | indexOutOfBound (a b : Nat) | external (m : String) | needMoreData (n : Nat)
  deriving DecidableEq, Repr

/-- objectstore_error.rs:10-66. -/
inductive StoreInner where
  | generic (store source : String) | notFound (path source : String) | invalidPath (source : String)
  | joinError (source : String) | notSupported (source : String) | alreadyExists (path source : String)
  | precondition (path source : String) | notModified (path source : String) | notImplemented (b : Bool)
  | permissionDenied (path source : String) | unauthenticated (path source : String)
  | unknownConfigurationKey (key store : String)
  deriving DecidableEq, Repr

/-- parser_error.rs:12-20. -/
inductive ParserInner where
  | tokenizerError (m : String) | parserError (m : String) | recursionLimitExceeded (b : Bool)
  deriving DecidableEq, Repr

/-- schema_error.rs:81-113. -/
inductive TableRefInner where
  | bare (table : String) | part (schema table : String) | full (catalog schema table : String)
  deriving DecidableEq, Repr

/-- schema_error.rs:49-56 and 76-80 (`relation` is a message whose `inner` may be missing). -/
structure ColumnProto where
  relation : Option (Option TableRefInner)
  name : String
  deriving DecidableEq, Repr

/-- schema_error.rs:11-47. -/
inductive SchemaInner where
  | ambiguousReference (field : Option ColumnProto)
  | duplicateQualifiedField (qualifier : Option (Option TableRefInner)) (name : String)
  | duplicateUnqualifiedField (name : String)
  | fieldNotFound (field : Option ColumnProto) (valid : List ColumnProto)
  deriving DecidableEq, Repr

/-- schema_error.rs:3-9. -/
structure SchemaProto where
  backtrace : Option String
  inner : Option SchemaInner
  deriving DecidableEq, Repr

/-- datafusion_error.rs:13-84: `DataFusionErrorProto`. `none` is a message without content; every other
constructor is a message whose `inner` is that variant. -/
inductive DfProto where
  | none
  | arrowError (e : ArrowProto)
  | parquetError (e : Option ParquetInner)
  | objectStoreError (e : Option StoreInner)
  | ioError (e : IoProto)
  | sql (e : Option (Option ParserInner)) (backtrace : Option String)
  | notImplemented (m : String) | internal (m : String) | plan (m : String) | configuration (m : String)
  | schema (e : SchemaProto)
  | execution (m : String) | executionJoin (m : String) | resourceExhausted (m : String) | external (m : String)
  | context (c : String) (e : Option DfProto)
  | substrait (m : String)
  | diagnostic (e : DfProto)
  | collection (es : List DfProto)
  | shared (e : DfProto)

/-! ## Into protobuf -/

/-- io_error.rs:14-58. -/
def fromIo (msg : String) (e : IoErr) : IoProto :=
  { msg := msg
    code := match e.kind with
      | .notFound => 0
      | .permissionDenied => 1
      | .connectionRefused => 2
      | .connectionReset => 3
      | .hostUnreachable => 4
      | .networkUnreachable => 5
      | .connectionAborted => 6
      | .notConnected => 7
      | .addrInUse => 8
      | .addrNotAvailable => 9
      | .networkDown => 10
      | .brokenPipe => 11
      | .alreadyExists => 12
      | .wouldBlock => 13
      | .notADirectory => 14
      | .isADirectory => 15
      | .directoryNotEmpty => 16
      | .readOnlyFilesystem => 17
      | .staleNetworkFileHandle => 18
      | .invalidInput => 19
      | .invalidData => 20
      | .timedOut => 21
      | .writeZero => 22
      | .storageFull => 23
      | .notSeekable => 24
      | .fileTooLarge => 25
      | .resourceBusy => 26
      | .executableFileBusy => 27
      | .deadlock => 28
      | .tooManyLinks => 29
      | .argumentListTooLong => 30
      | .interrupted => 31
      | .unsupported => 32
      | .unexpectedEof => 33
      | .outOfMemory => 34
      | .other => 35
      | .unlisted _ => -1
    err := e.text }

/-- arrow_error.rs:61-146. -/
def fromArrow (e : ArrowErr) (ctx : Option String) : ArrowProto :=
  { ctx := ctx
    inner := some <| match e with
      | .notYetImplemented m => .notYetImplemented m
      | .external m => .externalError m
      | .cast m => .castError m
      | .memory m => .memoryError m
      | .parse m => .parseError m
      | .schema m => .schemaError m
      | .compute m => .computeError m
      | .divideByZero => .divideByZero true
      | .arithmeticOverflow m => .arithmeticOverflow m
      | .csv m => .csvError m
      | .json m => .jsonError m
      | .io m e => .ioError (fromIo m e)
      | .ipc m => .ipcError m
      | .invalidArgument m => .invalidArgumentError m
      | .parquet m => .parquetError m
      | .cData m => .cDataInterface m
      | .dictionaryKeyOverflow => .dictionaryKeyOverflowError true
      | .runEndIndexOverflow => .runEndIndexOverflowError true
      | .offsetOverflow n => .offsetOverflowError n
      | .avro m => .avroError m }

/-- parquet_error.rs:62-96. -/
def fromParquet : ParquetErr → Option ParquetInner
  | .general m => some (.general m)
  | .nyi m => some (.nyi m)
  | .eof m => some (.eof m)
  | .arrow m => some (.arrowError m)
  | .indexOutOfBound a b => some (.indexOutOfBound a b)
  | .external m => some (.external m)
  | .needMoreData n => some (.needMoreData n)
  | .unlisted _ => some (.general "ParquetError could not be serialized into protobuf")

/-- objectstore_error.rs:69-171. -/
def fromStore : StoreErr → Option StoreInner
  | .generic store source => some (.generic store source)
  | .notFound path source => some (.notFound path source)
  | .invalidPath source => some (.invalidPath source)
  | .join source => some (.joinError source)
  | .notSupported source => some (.notSupported source)
  | .alreadyExists path source => some (.alreadyExists path source)
  | .precondition path source => some (.precondition path source)
  | .notModified path source => some (.notModified path source)
  | .notImplemented _ _ => some (.notImplemented true)
  | .permissionDenied path source => some (.permissionDenied path source)
  | .unauthenticated path source => some (.unauthenticated path source)
  | .unknownConfigurationKey key store => some (.unknownConfigurationKey key store)
  | .unlisted _ => some (.generic "Could not serialize ObjectStore error to proto"
      "Could not serialize ObjectStore error to proto")

/-- parser_error.rs:38-51. -/
def fromParser : ParserErr → Option ParserInner
  | .tokenizer m => some (.tokenizerError m)
  | .parser m => some (.parserError m)
  | .recursionLimitExceeded => some (.recursionLimitExceeded true)

/-- schema_error.rs:117-144. -/
def fromTableRef : TableRef → Option TableRefInner
  | .bare t => some (.bare t)
  | .part s t => some (.part s t)
  | .full c s t => some (.full c s t)

/-- schema_error.rs:58-66. -/
def fromColumn (c : Column) : ColumnProto :=
  { relation := c.relation.map fromTableRef, name := c.name }

/-- schema_error.rs:169-207. -/
def fromSchema (e : SchemaErr) (backtrace : Option String) : SchemaProto :=
  { backtrace := backtrace
    inner := some <| match e with
      | .ambiguousReference f => .ambiguousReference (some (fromColumn f))
      | .duplicateQualifiedField q n => .duplicateQualifiedField (some (fromTableRef q)) n
      | .duplicateUnqualifiedField n => .duplicateUnqualifiedField n
      | .fieldNotFound f v => .fieldNotFound (some (fromColumn f)) (v.map fromColumn) }

/-- datafusion_error.rs:87-183. -/
def fromDf : DfErr → DfProto
  | .arrow e ctx => .arrowError (fromArrow e ctx)
  | .parquet e => .parquetError (fromParquet e)
  | .store e => .objectStoreError (fromStore e)
  | .io e => .ioError (fromIo "" e)
  | .sql e bt => .sql (some (fromParser e)) bt
  | .notImplemented m => .notImplemented m
  | .internal m => .internal m
  | .plan m => .plan m
  | .configuration m => .configuration m
  | .schema e bt => .schema (fromSchema e bt)
  | .execution m => .execution m
  | .executionJoin m => .executionJoin m
  | .resourcesExhausted m => .resourceExhausted m
  | .external _ m => .external m
  | .context c e => .context c (some (fromDf e))
  | .substrait m => .substrait m
  | .diagnostic _ e => .diagnostic (fromDf e)
  | .collection es => .collection (es.map fromDf)
  | .shared e => .shared (fromDf e)
  | .ffi m => .external m

/-! ## Over the wire

prost writes every message as fields with numbers. When it reads a message back, a field whose number the
message does not declare is skipped, so a variant of a `oneof` whose tag is missing from the `tags` list of
the message that holds it is read as no variant at all. Messages inside messages are read down to
`recursionLimit` levels; a deeper one makes the whole read fail. -/

/-- prost 0.14 `RECURSION_LIMIT`. -/
def recursionLimit : Nat := 100

/-- What reading a `oneof` back gives: the variant, if its tag is declared.
prost, for the messages of `datafusion_error.rs:87-183`. -/
def readOneof {α : Type} (tags : List Nat) (tag : α → Nat) : Option α → Option α
  | some x => if tags.contains (tag x) then some x else .none
  | .none => .none

/-- arrow_error.rs:9-12. -/
def arrowTags : List Nat := [2,3,4,5,6,7,8,9,10,11,12,13,14,15,16,17,18,19,20]

/-- arrow_error.rs:17-56. -/
def ArrowInner.tag : ArrowInner → Nat
  | .notYetImplemented _ => 2 | .externalError _ => 3 | .castError _ => 4 | .memoryError _ => 5
  | .parseError _ => 6 | .schemaError _ => 7 | .computeError _ => 8 | .divideByZero _ => 9
  | .arithmeticOverflow _ => 10 | .csvError _ => 11 | .jsonError _ => 12 | .ioError _ => 13
  | .ipcError _ => 14 | .invalidArgumentError _ => 15 | .parquetError _ => 16 | .cDataInterface _ => 17
  | .dictionaryKeyOverflowError _ => 18 | .runEndIndexOverflowError _ => 19 | .offsetOverflowError _ => 20
  | .avroError _ => 21

/-- parquet_error.rs:8. -/
def parquetTags : List Nat := [1,2,3,4,5,6,7]

/-- parquet_error.rs:13-27. -/
def ParquetInner.tag : ParquetInner → Nat
  | .general _ => 1 | .nyi _ => 2 | .eof _ => 3 | .arrowError _ => 4 | .indexOutOfBound _ _ => 5
  | .external _ => 6 | .needMoreData _ => 7

/-- objectstore_error.rs:3-6. -/
def storeTags : List Nat := [1,2,3,4,5,6,7,8,9,10,11,12]

/-- objectstore_error.rs:11-36. -/
def StoreInner.tag : StoreInner → Nat
  | .generic _ _ => 1 | .notFound _ _ => 2 | .invalidPath _ => 3 | .joinError _ => 4 | .notSupported _ => 5
  | .alreadyExists _ _ => 6 | .precondition _ _ => 7 | .notModified _ _ => 8 | .notImplemented _ => 9
  | .permissionDenied _ _ => 10 | .unauthenticated _ _ => 11 | .unknownConfigurationKey _ _ => 12

/-- parser_error.rs:8. -/
def parserTags : List Nat := [1,2,3]

/-- parser_error.rs:13-19. -/
def ParserInner.tag : ParserInner → Nat
  | .tokenizerError _ => 1 | .parserError _ => 2 | .recursionLimitExceeded _ => 3

/-- schema_error.rs:78. -/
def tableRefTags : List Nat := [1,2,3]

/-- schema_error.rs:83-89. -/
def TableRefInner.tag : TableRefInner → Nat
  | .bare _ => 1 | .part _ _ => 2 | .full _ _ _ => 3

/-- schema_error.rs:7. -/
def schemaTags : List Nat := [2,3,4,5]

/-- schema_error.rs:12-20. -/
def SchemaInner.tag : SchemaInner → Nat
  | .ambiguousReference _ => 2 | .duplicateQualifiedField _ _ => 3 | .duplicateUnqualifiedField _ => 4
  | .fieldNotFound _ _ => 5

/-- datafusion_error.rs:15-18. -/
def dfTags : List Nat := [1,2,3,4,5,6,7,8,9,10,11,12,13,14,15,16,17,18,19]

/-- datafusion_error.rs:23-61. -/
def DfProto.tag : DfProto → Nat
  | .none => 0
  | .arrowError _ => 1 | .parquetError _ => 2 | .objectStoreError _ => 3 | .ioError _ => 4 | .sql _ _ => 5
  | .notImplemented _ => 6 | .internal _ => 7 | .plan _ => 8 | .configuration _ => 9 | .schema _ => 10
  | .execution _ => 11 | .executionJoin _ => 12 | .resourceExhausted _ => 13 | .external _ => 14
  | .context _ _ => 15 | .substrait _ => 16 | .diagnostic _ => 17 | .collection _ => 18 | .shared _ => 19

/-- What prost reads back of a column message, `schema_error.rs`. -/
def ColumnProto.wire (c : ColumnProto) : ColumnProto :=
  { c with relation := c.relation.map (readOneof tableRefTags TableRefInner.tag) }

/-- What prost reads back of a schema error message, `schema_error.rs`. -/
def SchemaInner.wire : SchemaInner → SchemaInner
  | .ambiguousReference f => .ambiguousReference (f.map ColumnProto.wire)
  | .duplicateQualifiedField q n => .duplicateQualifiedField (q.map (readOneof tableRefTags TableRefInner.tag)) n
  | .duplicateUnqualifiedField n => .duplicateUnqualifiedField n
  | .fieldNotFound f v => .fieldNotFound (f.map ColumnProto.wire) (v.map ColumnProto.wire)

/-- `readOneof` for `DataFusionErrorProto`. -/
def readDf (p : DfProto) : DfProto := if dfTags.contains p.tag then p else .none

/-- What prost reads back from the bytes it wrote for a message, when the message is not nested too deeply. -/
def DfProto.wire : DfProto → DfProto
  | .arrowError e => readDf (.arrowError { e with inner := readOneof arrowTags ArrowInner.tag e.inner })
  | .parquetError e => readDf (.parquetError (readOneof parquetTags ParquetInner.tag e))
  | .objectStoreError e => readDf (.objectStoreError (readOneof storeTags StoreInner.tag e))
  | .sql e bt => readDf (.sql (e.map (readOneof parserTags ParserInner.tag)) bt)
  | .schema e =>
    readDf (.schema { e with inner := readOneof schemaTags SchemaInner.tag (e.inner.map SchemaInner.wire) })
  | .context c (some e) => readDf (.context c (some e.wire))
  | .diagnostic e => readDf (.diagnostic e.wire)
  | .collection es => readDf (.collection (es.map DfProto.wire))
  | .shared e => readDf (.shared e.wire)
  | p => readDf p

/-- Levels of messages inside an `ArrowInner` (a `String` declared as `message` is a message of its own).
`arrow_error.rs`; prost counts the levels. -/
def ArrowInner.depth : ArrowInner → Nat
  | .ioError _ | .ipcError _ | .invalidArgumentError _ | .parquetError _ | .cDataInterface _ => 1
  | _ => 0

/-- Levels of messages inside a `ParquetInner`, `parquet_error.rs`; prost counts the levels. -/
def ParquetInner.depth : ParquetInner → Nat
  | .needMoreData _ => 0
  | _ => 1

/-- A table reference is a message holding a message (schema_error.rs:84-88). -/
def tableRefDepth : Option TableRefInner → Nat
  | some _ => 1
  | .none => 0

/-- Levels of messages inside a column, `schema_error.rs`; prost counts the levels. -/
def ColumnProto.depth (c : ColumnProto) : Nat :=
  match c.relation with
  | some r => tableRefDepth r + 1
  | .none => 0

/-- Levels of messages inside a `SchemaInner`, `schema_error.rs`; prost counts the levels. -/
def SchemaInner.depth : SchemaInner → Nat
  | .ambiguousReference (some f) => f.depth + 2
  | .ambiguousReference .none => 1
  | .duplicateQualifiedField (some q) _ => tableRefDepth q + 2
  | .duplicateQualifiedField .none _ => 1
  | .duplicateUnqualifiedField _ => 1
  | .fieldNotFound f v => ((f.map ColumnProto.depth).toList ++ v.map ColumnProto.depth).foldr max 0 + 2

/-- Levels of messages inside a `DataFusionErrorProto`. A column of `FieldNotFound` counts as one level even
when there is none, which can only overestimate messages no code writes. -/
def DfProto.depth : DfProto → Nat
  | .arrowError e => (match e.inner with | some i => i.depth | .none => 0) + 1
  | .parquetError e => (match e with | some i => i.depth | .none => 0) + 1
  | .objectStoreError e => (match e with | some _ => 1 | .none => 0) + 1
  | .ioError _ => 1
  | .sql e _ => (match e with | some _ => 1 | .none => 0) + 1
  | .schema e => (match e.inner with | some i => i.depth | .none => 0) + 1
  | .context _ (some e) => e.depth + 2
  | .context _ .none => 1
  | .diagnostic e => e.depth + 1
  | .collection es => 1 + (es.map fun e => e.depth + 1).foldr max 0
  | .shared e => e.depth + 1
  | _ => 0

/-! ## Out of protobuf -/

/-- io_error.rs:60-107. -/
def toIo (p : IoProto) : IoErr × String :=
  ({ kind := match p.code with
      | 0 => .notFound
      | 1 => .permissionDenied
      | 2 => .connectionRefused
      | 3 => .connectionReset
      | 4 => .hostUnreachable
      | 5 => .networkUnreachable
      | 6 => .connectionAborted
      | 7 => .notConnected
      | 8 => .addrInUse
      | 9 => .addrNotAvailable
      | 10 => .networkDown
      | 11 => .brokenPipe
      | 12 => .alreadyExists
      | 13 => .wouldBlock
      | 14 => .notADirectory
      | 15 => .isADirectory
      | 16 => .directoryNotEmpty
      | 17 => .readOnlyFilesystem
      | 18 => .staleNetworkFileHandle
      | 19 => .invalidInput
      | 20 => .invalidData
      | 21 => .timedOut
      | 22 => .writeZero
      | 23 => .storageFull
      | 24 => .notSeekable
      | 25 => .fileTooLarge
      | 26 => .resourceBusy
      | 27 => .executableFileBusy
      | 28 => .deadlock
      | 29 => .tooManyLinks
      | 30 => .argumentListTooLong
      | 31 => .interrupted
      | 32 => .unsupported
      | 33 => .unexpectedEof
      | 34 => .outOfMemory
      | 35 => .other
      | _ => .other
     text := p.err }, p.msg)

/-- arrow_error.rs:148-197. -/
def toArrow (p : ArrowProto) : ArrowErr × Option String :=
  match p.inner with
  | .none => (.external "Malformed protobuf message", .none)
  | some i =>
    (match i with
      | .notYetImplemented m => .notYetImplemented m
      | .externalError m => .external m
      | .castError m => .cast m
      | .memoryError m => .memory m
      | .parseError m => .parse m
      | .schemaError m => .schema m
      | .computeError m => .compute m
      | .divideByZero _ => .divideByZero
      | .arithmeticOverflow m => .arithmeticOverflow m
      | .csvError m => .csv m
      | .jsonError m => .json m
      | .ioError e => .io (toIo e).2 (toIo e).1
      | .ipcError m => .ipc m
      | .invalidArgumentError m => .invalidArgument m
      | .parquetError m => .parquet m
      | .cDataInterface m => .cData m
      | .dictionaryKeyOverflowError _ => .dictionaryKeyOverflow
      | .runEndIndexOverflowError _ => .runEndIndexOverflow
      | .offsetOverflowError n => .offsetOverflow n
      | .avroError m => .avro m, p.ctx)

/-- parquet_error.rs:98-116. -/
def toParquet : Option ParquetInner → ParquetErr
  | .none => .external "Malformed protobuf message"
  | some (.general m) => .general m
  | some (.nyi m) => .nyi m
  | some (.eof m) => .eof m
  | some (.arrowError m) => .arrow m
  | some (.indexOutOfBound a b) => .indexOutOfBound a b
  | some (.external m) => .external m
  | some (.needMoreData n) => .needMoreData n

/-- parquet_error.rs:40-57: the text shown by a peer built without parquet. -/
def showParquet : Option ParquetInner → String
  | .none => "External: Malformed protobuf message"
  | some (.general m) => "Parquet error: " ++ m
  | some (.nyi m) => "NYI: " ++ m
  | some (.eof m) => "EOF: " ++ m
  | some (.arrowError m) => "Arrow: " ++ m
  | some (.indexOutOfBound a b) => "Index " ++ toString a ++ " out of bound: " ++ toString b
  | some (.external m) => "External: " ++ m
  | some (.needMoreData n) => "NeedMoreData: " ++ toString n

/-- objectstore_error.rs:244-263. -/
def parseStore (s : String) : String :=
  match s with
  | "GCS" => "GCS"
  | "MicrosoftAzure" => "MicrosoftAzure"
  | "S3" => "S3"
  | "Config" => "Config"
  | "ChunkedStore" => "ChunkedStore"
  | "LineDelimiter" => "LineDelimiter"
  | "HTTP client" => "HTTP client"
  | "HTTP" => "HTTP"
  | "URL" => "URL"
  | "InMemory" => "InMemory"
  | "ObjectStoreRegistry" => "ObjectStoreRegistry"
  | "Parts" => "Parts"
  | "LocalFileSystem" => "LocalFileSystem"
  | _ => "Unknown"

/-- objectstore_error.rs:173-241. -/
def toStore : Option StoreInner → StoreErr
  | .none => .generic "unknown" "Could not deserialize ObjectStore error from proto"
  | some (.generic store source) => .generic (parseStore store) source
  | some (.notFound path source) => .notFound path source
  | some (.invalidPath source) => .generic "unknown" ("InvalidPath: " ++ source)
  | some (.joinError source) => .generic "unknown" ("JoinError: " ++ source)
  | some (.notSupported source) => .notSupported source
  | some (.alreadyExists path source) => .alreadyExists path source
  | some (.precondition path source) => .precondition path source
  | some (.notModified path source) => .notModified path source
  | some (.notImplemented _) => .notImplemented "unknown_operation" "unknown_implementer"
  | some (.permissionDenied path source) => .permissionDenied path source
  | some (.unauthenticated path source) => .unauthenticated path source
  | some (.unknownConfigurationKey key store) => .unknownConfigurationKey key (parseStore store)

/-- parser_error.rs:52-64. -/
def toParser : Option ParserInner → ParserErr
  | .none => .parser "Malformed protobuf message"
  | some (.tokenizerError m) => .tokenizer m
  | some (.parserError m) => .parser m
  | some (.recursionLimitExceeded _) => .recursionLimitExceeded

/-- parser_error.rs:24-34. -/
def showParser (p : Option ParserInner) : String :=
  "sql parser error: " ++ match p with
    | some (.tokenizerError m) => m
    | some (.parserError m) => m
    | some (.recursionLimitExceeded _) => "recursion limit exceeded"
    | .none => "Malformed protobuf message"

/-- schema_error.rs:146-166. -/
def toTableRef : Option TableRefInner → TableRef
  | .none => .bare ""
  | some (.bare t) => .bare t
  | some (.part s t) => .part s t
  | some (.full c s t) => .full c s t

/-- schema_error.rs:68-73. -/
def toColumn (c : ColumnProto) : Column :=
  { relation := c.relation.map toTableRef, name := c.name, spans := [] }

/-- schema_error.rs:209-257. -/
def toSchema (p : SchemaProto) : SchemaErr × Option String :=
  match p.inner with
  | .none => (.fieldNotFound ⟨.none, "", []⟩ [], .none)
  | some i =>
    (match i with
      | .ambiguousReference f => .ambiguousReference ((f.map toColumn).getD ⟨.none, "", []⟩)
      | .duplicateQualifiedField q n => .duplicateQualifiedField ((q.map toTableRef).getD (.bare "")) n
      | .duplicateUnqualifiedField n => .duplicateUnqualifiedField n
      | .fieldNotFound f v => .fieldNotFound ((f.map toColumn).getD ⟨.none, "", []⟩) (v.map toColumn), p.backtrace)

/-- The cargo features the receiving side was built with.
`cfg(feature = ..)` in `/repo/src/protocol/grpc/errors/datafusion_error.rs`. -/
structure Features where
  parquet : Bool
  sql : Bool
  deriving DecidableEq, Repr

/-- datafusion_error.rs:185-285. -/
def toDf (fs : Features) : DfProto → DfErr
  | .none => .internal "DataFusionError proto message is empty"
  | .arrowError e => .arrow (toArrow e).1 (toArrow e).2
  | .parquetError e =>
    if fs.parquet then .parquet (toParquet e) else .internal ("ParquetError from peer: " ++ showParquet e)
  | .objectStoreError e => .store (toStore e)
  | .ioError e => .io (toIo e).1
  | .sql e bt =>
    if fs.sql then .sql ((e.map toParser).getD (.parser "")) bt
    else .internal ("SQL error from peer: " ++ (e.map showParser).getD "" ++ bt.getD "")
  | .notImplemented m => .notImplemented m
  | .internal m => .internal m
  | .plan m => .plan m
  | .configuration m => .configuration m
  | .schema e => .schema (toSchema e).1 (toSchema e).2
  | .execution m => .execution m
  | .executionJoin m => .internal m
  | .resourceExhausted m => .resourcesExhausted m
  | .external m => .external .rebuilt m
  | .context c (some e) => .context c (toDf fs e)
  | .context c .none => .context c (.internal "Missing DataFusionError protobuf message")
  | .substrait m => .substrait m
  | .diagnostic e => .diagnostic 0 (toDf fs e)
  | .collection es => .collection (es.map (toDf fs))
  | .shared e => .shared (toDf fs e)

/-! ## The gRPC status -/

/-- `tonic::Code::Internal`. -/
def codeInternal : Nat := 13

/-- The bytes in the details of a status, by what reading them as a `DataFusionErrorProto` gives: a message
that was written by prost, or bytes that are no such message (with the text of the read error). -/
inductive Details where
  | written (p : DfProto)
  | garbage (why : String)

/-- `tonic::Status`. -/
structure Status where
  code : Nat
  message : String
  details : Details

/-- `DataFusionErrorProto::decode`. -/
def decode : Details → Except String DfProto
  | .written p =>
    if p.depth ≤ recursionLimit then .ok p.wire
    else .error "failed to decode Protobuf message: recursion limit reached"
  | .garbage why => .error why

/-- errors/mod.rs:22-27. -/
def toStatus (e : DfErr) : Status := ⟨codeInternal, "DataFusionError", .written (fromDf e)⟩

/-- errors/mod.rs:35-53. -/
def statusToDf (fs : Features) (s : Status) : Option DfErr :=
  if s.code != codeInternal then .none
  else if s.message != "DataFusionError" then .none
  else match decode s.details with
    | .ok p => some (toDf fs p)
    | .error why => some (.internal ("Cannot decode DataFusionError: " ++ why))

/-- errors/mod.rs:57-60. The text of a status (`impl Display for tonic::Status`) is left abstract. -/
def mapStatus (fs : Features) (shown : Status → String) (s : Status) : DfErr :=
  (statusToDf fs s).getD (.external (.status s.code s.message) (shown s))

/-- `arrow_flight::error::FlightError`: a status, or any other error (by its text). -/
inductive FlightErr where
  | tonic (s : Status)
  | other (text : String)

/-- errors/mod.rs:64-69. -/
def mapFlight (fs : Features) (shown : Status → String) : FlightErr → DfErr
  | .tonic s => mapStatus fs shown s
  | .other text => .external .flight text

/-- A worker streaming a result fails with `e` (worker_service.rs:396); its consumer, built with features
`fs`, reads the stream (worker_client.rs:303). -/
def received (fs : Features) (shown : Status → String) (e : DfErr) : DfErr :=
  mapFlight fs shown (.tonic (toStatus e))

end DD.ErrorWire
