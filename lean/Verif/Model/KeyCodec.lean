/-
Custom expressions on their way to the workers.

Expressions a user has written themselves are encoded by the codecs they register (`PhysicalExtensionCodec::try_encode_expr`). Models
which codec is asked where: for the expressions of DataFusion's nodes the composed one (`encode_execution_plan`, `decode_execution_plan`,
`/repo/src/codec/physical_plan.rs:26-43`), for the partitioning of a producer head likewise (`encode_partitioning`,
`decode_partitioning`, physical_plan.rs:45-66), but for the hash keys an exchange declares the codec of this project alone
(`/repo/src/codec/distributed_codec.rs:112-117`, `:137-142`, `:162-167`, `:277-281`, `:293-297`, `:309-313`).

Expressions are trees of built-in and custom nodes, as plans are, and DataFusion encodes them in the same way: `Plan`, `Wire`,
`encodePlan` and `decodePlan` of `Model/UserCodec.lean` are used for them.
-/
import Verif.Model.UserCodec

namespace DD.UserCodec

variable {B X F : Type}

/-- `DistributedCodec` on expressions, distributed_codec.rs:48-375: it does not override `try_encode_expr` and `try_decode_expr`, so that
they are those of the trait: both fail, and nothing is written. -/
def ownExpr : Codec B X F where
  encode _ := ([], .error (.notImpl "PhysicalExtensionCodec is not provided"))
  decode _ _ := .error (.notImpl "PhysicalExtensionCodec is not provided")
  encodeFn _ := ([], .ok ())
  decodeFn _ _ := .error (.notImpl "PhysicalExtensionCodec is not provided for scalar function")

/- `serialize_physical_expr` with one codec that is not composed of others, distributed_codec.rs:277-281. -/
mutual
def encodeAlone (c : Codec B X F) : Plan B X → Except Err (Wire B)
  | .builtin b ch => do
    let ws ← encodeAloneAll c ch
    .ok (.builtin b ws)
  | .ext x ch => match c.encode (.ext x ch) with
    | (_, .error e) => .error e
    | (n, .ok _) => do
      let ws ← encodeAloneAll c ch
      .ok (.ext n ws)
/-- `encodeAlone` on every argument, distributed_codec.rs:277-281. -/
def encodeAloneAll (c : Codec B X F) : List (Plan B X) → Except Err (List (Wire B))
  | [] => .ok []
  | p :: ps => do
    let w ← encodeAlone c p
    let ws ← encodeAloneAll c ps
    .ok (w :: ws)
end

/- `parse_physical_expr` with one codec that is not composed of others, distributed_codec.rs:112-117. -/
mutual
def decodeAlone (c : Codec B X F) : Wire B → Except Err (Plan B X)
  | .builtin b ws => do
    let ch ← decodeAloneAll c ws
    .ok (.builtin b ch)
  | .ext n ws => do
    let ch ← decodeAloneAll c ws
    c.decode n ch
/-- `decodeAlone` on every argument, distributed_codec.rs:112-117. -/
def decodeAloneAll (c : Codec B X F) : List (Wire B) → Except Err (List (Plan B X))
  | [] => .ok []
  | w :: ws => do
    let p ← decodeAlone c w
    let ps ← decodeAloneAll c ws
    .ok (p :: ps)
end

/-- The plan of a stage, as far as its expressions go: nodes with expressions, and exchanges that declare hash keys
(`NetworkShuffleExec`, and the others if the plan below them is hash partitioned). -/
inductive StagePlan (B X : Type) where
  | node (exprs : List (Plan B X)) (children : List (StagePlan B X))
  | exchange (keys : List (Plan B X))

/-- The message of the plan of a stage. `PhysicalPlanNode` (DataFusion) and `NetworkShuffleExecProto`, distributed_codec.rs:400-441. -/
inductive StageWire (B : Type) where
  | node (exprs : List (Wire B)) (children : List (StageWire B))
  | exchange (keys : List (Wire B))

/- `encode_execution_plan`, physical_plan.rs:26-34, with `DistributedCodec::try_encode`, distributed_codec.rs:245-330. If the codec of this
project fails for an exchange, the codecs of users are asked for it, and refuse what they do not know. -/
mutual
def sendStage (P : Prost) (s : Session B X F) : StagePlan B X → Except Err (StageWire B)
  | .node es ch => do
    let ws ← encodePlans P (s.combined ownExpr) es
    let cs ← sendStages P s ch
    .ok (.node ws cs)
  | .exchange ks => do
    let ws ← encodeAloneAll (ownExpr : Codec B X F) ks
    .ok (.exchange ws)
/-- `sendStage` on every input, physical_plan.rs:26-34. -/
def sendStages (P : Prost) (s : Session B X F) : List (StagePlan B X) → Except Err (List (StageWire B))
  | [] => .ok []
  | p :: ps => do
    let w ← sendStage P s p
    let ws ← sendStages P s ps
    .ok (w :: ws)
end

/- `decode_execution_plan`, physical_plan.rs:36-43, with `DistributedCodec::try_decode`, distributed_codec.rs:49-175. -/
mutual
def receiveStage (P : Prost) (s : Session B X F) : StageWire B → Except Err (StagePlan B X)
  | .node ws cs => do
    let es ← decodePlans P (s.combined ownExpr) ws
    let ch ← receiveStages P s cs
    .ok (.node es ch)
  | .exchange ws => do
    let ks ← decodeAloneAll (ownExpr : Codec B X F) ws
    .ok (.exchange ks)
/-- `receiveStage` on every input, physical_plan.rs:36-43. -/
def receiveStages (P : Prost) (s : Session B X F) : List (StageWire B) → Except Err (List (StagePlan B X))
  | [] => .ok []
  | w :: ws => do
    let p ← receiveStage P s w
    let ps ← receiveStages P s ws
    .ok (p :: ps)
end

end DD.UserCodec
