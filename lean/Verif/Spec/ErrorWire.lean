/-
What an error may contain to arrive unchanged, stated on errors alone.
-/
import Verif.Model.ErrorWire

namespace DD.ErrorWire

/-- The kind of an I/O error has a number on the wire. -/
def IoKept (e : IoErr) : Prop := ∀ n, e.kind ≠ .unlisted n

/-- Every Arrow error but Avro errors. -/
def ArrowKept : ArrowErr → Prop
  | .avro _ => False
  | .io _ e => IoKept e
  | _ => True

def ParquetKept : ParquetErr → Prop
  | .unlisted _ => False
  | _ => True

/-- The names of object stores that survive. -/
def storeNames : List String :=
  ["GCS", "MicrosoftAzure", "S3", "Config", "ChunkedStore", "LineDelimiter", "HTTP client", "HTTP", "URL",
    "InMemory", "ObjectStoreRegistry", "Parts", "LocalFileSystem", "Unknown"]

def StoreKept : StoreErr → Prop
  | .generic store _ => store ∈ storeNames
  | .unknownConfigurationKey _ store => store ∈ storeNames
  | .invalidPath _ => False
  | .join _ => False
  | .unlisted _ => False
  | .notImplemented o i => o = "unknown_operation" ∧ i = "unknown_implementer"
  | _ => True

def SchemaKept : SchemaErr → Prop
  | .ambiguousReference f => f.spans = []
  | .fieldNotFound f v => f.spans = [] ∧ ∀ c ∈ v, c.spans = []
  | _ => True

/-- Errors made only of what the wire carries. -/
def Kept : DfErr → Prop
  | .arrow e _ => ArrowKept e
  | .parquet e => ParquetKept e
  | .store e => StoreKept e
  | .io e => IoKept e
  | .schema e _ => SchemaKept e
  | .executionJoin _ => False
  | .ffi _ => False
  | .external ty _ => ty = .rebuilt
  | .context _ e => Kept e
  | .diagnostic d e => d = 0 ∧ Kept e
  | .collection es => ∀ e ∈ es, Kept e
  | .shared e => Kept e
  | _ => True

/-- How deeply an error is wrapped in other errors; contexts and collections count twice. -/
def wraps : DfErr → Nat
  | .context _ e => wraps e + 2
  | .collection es => (es.map wraps).foldr max 0 + 2
  | .diagnostic _ e => wraps e + 1
  | .shared e => wraps e + 1
  | _ => 0

/-- `e` wraps no other error. -/
def Leaf : DfErr → Prop
  | .context _ _ | .diagnostic _ _ | .collection _ | .shared _ => False
  | _ => True

/-- Change the innermost errors, keep everything around them except the content of diagnostics. -/
def onLeaves (f : DfErr → DfErr) : DfErr → DfErr
  | .context c e => .context c (onLeaves f e)
  | .diagnostic _ e => .diagnostic 0 (onLeaves f e)
  | .collection es => .collection (es.map (onLeaves f))
  | .shared e => .shared (onLeaves f e)
  | e => f e

/-- Two errors of the same kind, that is, of the same variant of `DataFusionError`. -/
def sameKind : DfErr → DfErr → Prop
  | .arrow _ _, .arrow _ _ | .parquet _, .parquet _ | .store _, .store _ | .io _, .io _ | .sql _ _, .sql _ _
  | .notImplemented _, .notImplemented _ | .internal _, .internal _ | .plan _, .plan _
  | .configuration _, .configuration _ | .schema _ _, .schema _ _ | .execution _, .execution _
  | .executionJoin _, .executionJoin _ | .resourcesExhausted _, .resourcesExhausted _
  | .external _ _, .external _ _ | .context _ _, .context _ _ | .substrait _, .substrait _
  | .diagnostic _ _, .diagnostic _ _ | .collection _, .collection _ | .shared _, .shared _ | .ffi _, .ffi _ => True
  | _, _ => False

end DD.ErrorWire
