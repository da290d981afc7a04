/-
**C76**: the two ends of a work unit feed.
-/
import Verif.Model.FeedEnds
import Verif.Props.Codec
import Mathlib.Data.List.Perm.Basic
import Mathlib.Data.List.Flatten
import Mathlib.Tactic.Ring

namespace DD.FeedEnds
open DD.Codec

variable {T U : Type}

/-- **C76** What a worker decodes is the other end of the same feed: it has the same id and asks for the units sent under it. This stays so
however often the plan is encoded and decoded again. -/
theorem C76_feed_on_the_wire (f : Feed T) :
    ∃ g : Feed T, Feed.fromProto f.toProto = .ok g ∧ g.id = f.id ∧ g.provider = .remote f.id
      ∧ Feed.fromProto g.toProto = .ok g := by
  refine ⟨⟨f.id, .remote f.id⟩, ?_, rfl, rfl, ?_⟩ <;>
    simp only [Feed.fromProto, Feed.toProto, deserialize_serialize] <;> rfl

/-- Feeds with different ids are still told apart. -/
theorem C76_feeds_on_the_wire_differ (f g : Feed T) : f.toProto = g.toProto ↔ f.id = g.id := by
  constructor
  · intro h
    have := congrArg deserializeUuid h
    simp only [Feed.toProto, deserialize_serialize] at this
    exact Except.ok.inj this
  · intro h; simp only [Feed.toProto, h]

/-- **C76** A feed whose id does not have 16 bytes is refused. -/
theorem C76_malformed_feed (b : Bytes) :
    (∃ g : Feed T, Feed.fromProto b = .ok g) ↔ b.length = 16 := by
  unfold Feed.fromProto deserializeUuid
  split
  · rename_i h; exact ⟨fun _ => h, fun _ => ⟨_, rfl⟩⟩
  · rename_i h
    constructor
    · rintro ⟨_, hg⟩; cases hg
    · intro h'; exact absurd h' h

/-- **C76** The provider is where it was made and nowhere else: a feed made of a provider gives it back and can be given another one, and what
was decoded of it gives none, with an error where the caller asked for one. -/
theorem C76_provider_stays_behind (id : Uuid) (t t' : T) :
    (Feed.new id t).inner = some t ∧ (Feed.new id t).tryInner = .ok t
    ∧ (∃ f, (Feed.new id t).replace t' = some f ∧ f.inner = some t' ∧ f.toProto = (Feed.new id t).toProto)
    ∧ ∀ g : Feed T, Feed.fromProto (Feed.new id t).toProto = .ok g →
      g.inner = none ∧ g.replace t' = none ∧ ∃ e, g.tryInner = .error (.internal e) := by
  refine ⟨rfl, rfl, ⟨_, rfl, rfl, rfl⟩, ?_⟩
  intro g hg
  obtain ⟨g', h1, _, h2, _⟩ := C76_feed_on_the_wire (Feed.new id t)
  rw [h1] at hg
  cases hg
  unfold Feed.inner Feed.replace Feed.tryInner
  rw [h2]
  exact ⟨rfl, rfl, _, rfl⟩

/-- Partitions of tasks, numbered through. -/
theorem range_mul_flatMap {β : Type} (g : Nat → List β) (P : Nat) : ∀ n : Nat,
    ((List.range n).flatMap fun i => (List.range P).flatMap fun q => g (P * i + q)) = (List.range (P * n)).flatMap g
  | 0 => by simp
  | n + 1 => by
    rw [List.range_succ, List.flatMap_append, range_mul_flatMap g P n, Nat.mul_succ, List.range_add, List.flatMap_append,
      List.flatMap_map]
    simp

/-- **C76** A node with a feed reads the same units whether or not the query is distributed: if the provider returns the same units together
for every fan-out, what the `n` tasks get through the ends they decoded is what a single node gets through the end with the provider, where
`receive i id q` is what task `i` is sent for partition `q` (`C76_nodes_read_their_feed`). -/
theorem C76_same_units_on_one_node (provide : T → Nat → Nat → List U) (t : T) (id : Uuid) (P n : Nat)
    (hfair : ((List.range (P * n)).flatMap (provide t n)).Perm ((List.range P).flatMap (provide t 1)))
    (receive : Nat → Uuid → Nat → List U) (hrec : ∀ i < n, ∀ q < P, receive i id q = provide t n (P * i + q))
    (session : Option Nat) (g : Feed T) (hg : Feed.fromProto (Feed.new id t).toProto = .ok g) :
    ((List.range n).flatMap fun i => (List.range P).flatMap fun q => g.feed provide (receive i) session q).Perm
      ((List.range P).flatMap fun q => (Feed.new id t).feed provide (receive 0) none q) := by
  obtain ⟨g', h1, _, h2, _⟩ := C76_feed_on_the_wire (Feed.new id t)
  rw [h1] at hg
  cases hg
  have e1 : ((List.range n).flatMap fun i => (List.range P).flatMap fun q => g.feed provide (receive i) session q)
      = (List.range n).flatMap fun i => (List.range P).flatMap fun q => provide t n (P * i + q) := by
    refine List.flatMap_congr fun i hi => List.flatMap_congr fun q hq => ?_
    unfold Feed.feed
    rw [h2]
    exact hrec i (List.mem_range.mp hi) q (List.mem_range.mp hq)
  rw [e1, range_mul_flatMap]
  exact hfair

/-- The theorem applies: a provider that deals twelve units to two partitions of as many tasks as it is told. -/
example : ((List.range (2 * 3)).flatMap fun p => (List.range 12).filter (· % (2 * 3) == p)).Perm
    ((List.range 2).flatMap fun p => (List.range 12).filter (· % (2 * 1) == p)) := by decide +kernel

end DD.FeedEnds
