/-
Vocabulary for C65 and C66: what a user expects of the codecs they register.
-/
import Verif.Model.UserCodec

namespace DD.UserCodec

variable {B X F : Type}

/-- `q` is a node of the plan `p`. -/
inductive Within (q : Plan B X) : Plan B X → Prop
  | here : Within q q
  | builtin (b : B) (cs : List (Plan B X)) (c : Plan B X) : c ∈ cs → Within q c → Within q (.builtin b cs)
  | ext (x : X) (cs : List (Plan B X)) (c : Plan B X) : c ∈ cs → Within q c → Within q (.ext x cs)

/-- The codec agrees to encode the node. -/
def Codec.Accepts (c : Codec B X F) (p : Plan B X) : Prop := (c.encode p).2 = .ok ()

/-- What the codec writes for the node, it reads back as the same node. -/
def Codec.Faithful (c : Codec B X F) (p : Plan B X) : Prop :=
  c.Accepts p → c.decode (c.encode p).1 p.children = .ok p

/-- If the codec refuses the node, it has written nothing. -/
def Codec.Clean (c : Codec B X F) (p : Plan B X) : Prop := ¬ c.Accepts p → (c.encode p).1 = []

/-- A session with the given codecs registered one after the other. -/
def registered (calls : List (Codec B X F)) : Session B X F := calls.foldl Session.register .empty

/-- Messages are read back as they were written, and the message with all fields at their defaults is empty, as for every
protobuf message. -/
structure Prost.Lawful (P : Prost) : Prop where
  back : ∀ t, P.dec (P.enc t) = .ok t
  default : P.enc ⟨0, []⟩ = []

/-- The functions an expression calls. -/
inductive Calls (f : Fn F) : Expr F → Prop
  | here (args : List (Expr F)) : Calls f (.call f args)
  | arg (g : Fn F) (args : List (Expr F)) (a : Expr F) : a ∈ args → Calls f a → Calls f (.call g args)

end DD.UserCodec
