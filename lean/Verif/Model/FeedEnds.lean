/-
The two ends of a work unit feed: the one with the user's provider, on the coordinator or in a query that is not distributed, and the one
a worker decodes, which reads what the coordinator sends.

Models `WorkUnitFeed`, `/repo/src/work_unit_feed/work_unit_feed.rs:122-290`, and `DistributedWorkUnitFeedContext::from_ctx`,
`/repo/src/work_unit_feed/work_unit_feed_provider.rs:97-109`. Metrics are left out (`Model/FeedRead`).
-/
import Verif.Model.Codec

namespace DD.FeedEnds
open DD.Codec

/-- `RemoteOrLocalProvider`, work_unit_feed.rs:128-132. `T` is the type of the user's provider. -/
inductive End (T : Type) where
  | «local» (t : T)
  | remote (id : Uuid)

/-- `WorkUnitFeed`, work_unit_feed.rs:122-126. -/
structure Feed (T : Type) where
  id : Uuid
  provider : End T

variable {T R : Type}

/-- `new`, work_unit_feed.rs:164-169. `id` is the fresh UUID. -/
def Feed.new (id : Uuid) (t : T) : Feed T := ⟨id, .local t⟩

/-- `to_proto`, work_unit_feed.rs:190-194: only the id. -/
def Feed.toProto (f : Feed T) : Bytes := serializeUuid f.id

/-- `from_proto`, work_unit_feed.rs:175-184. -/
def Feed.fromProto (b : Bytes) : Except Err (Feed T) := do
  let id ← deserializeUuid b
  .ok ⟨id, .remote id⟩

/-- `into_inner` and `inner`, work_unit_feed.rs:211-225. -/
def Feed.inner (f : Feed T) : Option T :=
  match f.provider with
  | .local t => some t
  | .remote _ => none

/-- `inner_mut`, work_unit_feed.rs:228-235, followed by an assignment through the reference: `none` if there is none. -/
def Feed.replace (f : Feed T) (t : T) : Option (Feed T) :=
  match f.provider with
  | .local _ => some ⟨f.id, .local t⟩
  | .remote _ => none

/-- `try_into_inner` and `try_inner`, work_unit_feed.rs:199-208, :240-249. -/
def Feed.tryInner (f : Feed T) : Except Err T :=
  match f.provider with
  | .local t => .ok t
  | .remote _ => .error (.internal "Cannot get the inner local provider, as the remote variant was already set")

/-- `DistributedWorkUnitFeedContext::from_ctx`, work_unit_feed_provider.rs:101-109: the fan-out in the session, or 1. -/
def fanOut (session : Option Nat) : Nat := session.getD 1

/-- `feed`, work_unit_feed.rs:134-144, :268-275. `provide t n p` is the user's `feed(p)` told to fan out to `n` tasks, `receive id p` is
`RemoteFeedProvider::feed` (`/repo/src/work_unit_feed/remote_work_unit_feed.rs:119-213`), `session` the extension of the session the
node is executed in. -/
def Feed.feed (provide : T → Nat → Nat → R) (receive : Uuid → Nat → R) (session : Option Nat) (f : Feed T) (p : Nat) : R :=
  match f.provider with
  | .local t => provide t (fanOut session) p
  | .remote id => receive id p

end DD.FeedEnds
