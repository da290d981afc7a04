/-
User-provided codecs: how custom plan nodes and functions travel between the coordinator and the workers.

Models `/repo/src/codec/user_codec.rs:1-34`, `/repo/src/codec/physical_plan.rs:25-43` and
`/repo/src/codec/distributed_codec.rs:40-46, :245-375`. The composed codec, the traversal that encodes and decodes a plan and the
treatment of functions are `datafusion-proto`: they are modelled here as described in DESIGN.md, "External contracts".
Positions of codecs are natural numbers (`u32` in `datafusion-proto`).
-/
import Verif.Model.Boundary

namespace DD.UserCodec

/-- `Vec<u8>` of Rust's std. -/
abbrev Bytes := List UInt8

/-- A plan: nodes DataFusion encodes itself (`builtin`) and nodes it leaves to the codecs (`ext`: the nodes of this project
and custom nodes). -/
inductive Plan (B X : Type) where
  | builtin (b : B) (children : List (Plan B X))
  | ext (x : X) (children : List (Plan B X))

/-- `ExecutionPlan::children` (DataFusion). -/
def Plan.children {B X : Type} : Plan B X → List (Plan B X)
  | .builtin _ cs | .ext _ cs => cs

/-- A function called by an expression: its name and what it does. `ScalarUDF` (DataFusion). -/
structure Fn (F : Type) where
  name : String
  body : F
  deriving DecidableEq

/-- `PhysicalExtensionCodec`. The encoders append to a buffer: they are modelled by the bytes they appended, and their
result. The decoders get the decoded inputs of the node, or the name of the function.
DataFusion's trait, implemented by the user (`/repo/src/codec/user_codec.rs:1-34`). -/
structure Codec (B X F : Type) where
  encode : Plan B X → Bytes × Except Err Unit
  decode : Bytes → List (Plan B X) → Except Err (Plan B X)
  encodeFn : Fn F → Bytes × Except Err Unit
  decodeFn : String → Bytes → Except Err (Fn F)

variable {B X F : Type}

/-- `DistributedCodec`, distributed_codec.rs:48-375. `own` encodes the nodes of this project; every other node is refused at
:372-374. Nothing is written before the message is complete. The hooks for functions are not overridden, so they are those
of the trait: encoding succeeds and writes nothing, decoding fails. -/
def distributed (own : X → Option (Except Err Bytes))
    (dec : Bytes → List (Plan B X) → Except Err (Plan B X)) : Codec B X F where
  encode
    | .ext x _ => match own x with
      | some (.ok b) => (b, .ok ())
      | some (.error e) => ([], .error e)
      | none => ([], .error (.internal "Unexpected plan"))
    | .builtin .. => ([], .error (.internal "Unexpected plan"))
  decode := dec
  encodeFn _ := ([], .ok ())
  decodeFn _ _ := .error (.notImpl "PhysicalExtensionCodec is not provided for scalar function")

/-- The part of a `SessionConfig` that holds the user's codecs, user_codec.rs:5. -/
structure Session (B X F : Type) where
  codecs : Option (List (Codec B X F))

/-- A session nobody registered a codec in. user_codec.rs:7-33. -/
def Session.empty : Session B X F := ⟨none⟩

/-- `set_distributed_user_codec_arc`, user_codec.rs:7-17. -/
def Session.register (s : Session B X F) (c : Codec B X F) : Session B X F :=
  ⟨some ((match s.codecs with | none => [] | some prev => prev) ++ [c])⟩

/-- `get_distributed_user_codecs`, user_codec.rs:26-33. -/
def Session.userCodecs (s : Session B X F) : List (Codec B X F) :=
  match s.codecs with
  | none => []
  | some v => v

/-- `new_combined_with_user`, distributed_codec.rs:41-45. -/
def Session.combined (own : Codec B X F) (s : Session B X F) : List (Codec B X F) :=
  own :: s.userCodecs

/-! ### `datafusion-proto` -/

/-- `DataEncoderTuple`: the position of the codec that encoded, and what it wrote. DataFusion. -/
structure Tagged where
  position : Nat
  blob : Bytes
  deriving DecidableEq

/-- `prost` on `DataEncoderTuple`. -/
structure Prost where
  enc : Tagged → Bytes
  dec : Bytes → Except Err Tagged

/-- `ComposedPhysicalExtensionCodec::encode_protobuf`: the codecs are tried in order, all on the same buffer. DataFusion. -/
def tryEncode (f : Codec B X F → Bytes × Except Err Unit) :
    List (Codec B X F) → Nat → Bytes → Err → Except Err Tagged
  | [], _, _, last => .error last
  | c :: cs, i, buf, _ =>
    match f c with
    | (b, .ok _) => .ok ⟨i, buf ++ b⟩
    | (b, .error e) => tryEncode f cs (i + 1) (buf ++ b) e

/-- `ComposedPhysicalExtensionCodec::encode_protobuf` (DataFusion). -/
def composedEncode (P : Prost) (cs : List (Codec B X F)) (f : Codec B X F → Bytes × Except Err Unit) : Except Err Bytes := do
  let t ← tryEncode f cs 0 [] (.internal "Empty list of composed codecs")
  .ok (P.enc t)

/-- `ComposedPhysicalExtensionCodec::decode_protobuf`: the codec at the position in the message decodes. DataFusion. -/
def composedDecode {α : Type} (P : Prost) (cs : List (Codec B X F)) (f : Codec B X F → Bytes → Except Err α) (b : Bytes) :
    Except Err α := do
  let t ← P.dec b
  match cs[t.position]? with
  | none => .error (.internal "Can't find required codec in codec list")
  | some c => f c t.blob

/-- `PhysicalPlanNode`, as far as it matters: the encodings DataFusion has for its own nodes lose nothing. -/
inductive Wire (B : Type) where
  | builtin (b : B) (children : List (Wire B))
  | ext (node : Bytes) (inputs : List (Wire B))

/- `encode_execution_plan`, physical_plan.rs:26-34: an extension node is encoded before its inputs. -/
mutual
def encodePlan (P : Prost) (cs : List (Codec B X F)) : Plan B X → Except Err (Wire B)
  | .builtin b ch => do
    let ws ← encodePlans P cs ch
    .ok (.builtin b ws)
  | .ext x ch => do
    let n ← composedEncode P cs fun c => c.encode (.ext x ch)
    let ws ← encodePlans P cs ch
    .ok (.ext n ws)
/-- `encodePlan` on every input, physical_plan.rs:26-34. -/
def encodePlans (P : Prost) (cs : List (Codec B X F)) : List (Plan B X) → Except Err (List (Wire B))
  | [] => .ok []
  | p :: ps => do
    let w ← encodePlan P cs p
    let ws ← encodePlans P cs ps
    .ok (w :: ws)
end

/- `decode_execution_plan`, physical_plan.rs:36-43: the inputs of an extension node are decoded before it. -/
mutual
def decodePlan (P : Prost) (cs : List (Codec B X F)) : Wire B → Except Err (Plan B X)
  | .builtin b ws => do
    let ch ← decodePlans P cs ws
    .ok (.builtin b ch)
  | .ext n ws => do
    let ch ← decodePlans P cs ws
    composedDecode P cs (fun c b => c.decode b ch) n
/-- `decodePlan` on every input, physical_plan.rs:36-43. -/
def decodePlans (P : Prost) (cs : List (Codec B X F)) : List (Wire B) → Except Err (List (Plan B X))
  | [] => .ok []
  | w :: ws => do
    let p ← decodePlan P cs w
    let ps ← decodePlans P cs ws
    .ok (p :: ps)
end

/-! ### Functions in expressions -/

/-- An expression: columns, and calls of functions. `PhysicalExpr` (DataFusion). -/
inductive Expr (F : Type) where
  | col (i : Nat)
  | call (f : Fn F) (args : List (Expr F))

/-- `PhysicalScalarUdfNode`: a definition is sent if the codec wrote one. DataFusion. -/
inductive ExprWire where
  | col (i : Nat)
  | call (name : String) (definition : Option Bytes) (args : List ExprWire)

/- Encoding an expression with the codec of physical_plan.rs:30, :49. -/
mutual
def encodeExpr (P : Prost) (cs : List (Codec B X F)) : Expr F → Except Err ExprWire
  | .col i => .ok (.col i)
  | .call f args => do
    let b ← composedEncode P cs fun c => c.encodeFn f
    let ws ← encodeExprs P cs args
    .ok (.call f.name (if b.isEmpty then none else some b) ws)
/-- `encodeExpr` on every argument, physical_plan.rs:30, :49. -/
def encodeExprs (P : Prost) (cs : List (Codec B X F)) : List (Expr F) → Except Err (List ExprWire)
  | [] => .ok []
  | e :: es => do
    let w ← encodeExpr P cs e
    let ws ← encodeExprs P cs es
    .ok (w :: ws)
end

/-- Finding a function: a definition that was sent is decoded; without one the session of the worker is asked for the
name, and then the codec. `parse_physical_expr` (DataFusion). -/
def findFn (P : Prost) (cs : List (Codec B X F)) (registry : String → Option (Fn F)) (name : String) :
    Option Bytes → Except Err (Fn F)
  | some b => composedDecode P cs (fun c b => c.decodeFn name b) b
  | none => match registry name with
    | some f => .ok f
    | none => composedDecode P cs (fun c b => c.decodeFn name b) []

/- Decoding an expression with the codec of physical_plan.rs:40, :63. -/
mutual
def decodeExpr (P : Prost) (cs : List (Codec B X F)) (registry : String → Option (Fn F)) : ExprWire → Except Err (Expr F)
  | .col i => .ok (.col i)
  | .call n d args => do
    let f ← findFn P cs registry n d
    let es ← decodeExprs P cs registry args
    .ok (.call f es)
/-- `decodeExpr` on every argument, physical_plan.rs:40, :63. -/
def decodeExprs (P : Prost) (cs : List (Codec B X F)) (registry : String → Option (Fn F)) :
    List ExprWire → Except Err (List (Expr F))
  | [] => .ok []
  | w :: ws => do
    let e ← decodeExpr P cs registry w
    let es ← decodeExprs P cs registry ws
    .ok (e :: es)
end

end DD.UserCodec
