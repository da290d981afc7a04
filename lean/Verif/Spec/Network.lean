/-
What it means for a query to end, and what is asked of the operators of its tasks.
-/
import Verif.Model.Network

namespace DD.Net

variable {S α σ : Type} [DecidableEq S]

namespace Net
variable (n : Net S α σ)

/-- The stages form a tree below the head stage, which sends nothing itself, and every buffer can hold something. -/
structure Ok : Prop where
  parent : ∀ s ∈ n.stages, s ≠ n.root → n.parent s ∈ n.stages
  depth : ∀ s ∈ n.stages, s ≠ n.root → n.depth (n.parent s) < n.depth s
  head : n.streams n.root = []
  room : ∀ s r w queue window budget, n.link s r w = .remote queue window budget → 0 < queue ∧ 0 < window ∧ 0 < budget

/-- States some execution comes to. -/
def Reached (st : State S α σ) : Prop := ∃ steps, st = n.run steps

/-- The coordinator has read everything it asked for to the end, or dropped it. -/
def Finished (st : State S α σ) : Prop := ∀ s d, n.isStream s d → n.parent s = n.root → st.eof s d = true

/-- Nothing a task computed waits for somebody else: every partition it sends has ended, or was asked for and all of it was sent. -/
def Unhindered (st : State S α σ) (s : S) (t : Nat) : Prop :=
  ∀ d ∈ n.streams s, d.writer = t → st.done s d = true ∨ (st.asked s d.reader t = true ∧ st.pend s d = [])

/-- The inputs of every stage have an order, and a task that can send goes on reading the first of them that has not ended and was not
dropped, for example the build side of a join before its probe side. A task may be willing to read more than that. -/
def Orderly (rank : S → Nat) : Prop :=
  ∀ st, n.Reached st → ∀ s d, n.isStream s d → st.eof s d = false → n.Unhindered st (n.parent s) d.reader →
    (∀ s' d', n.isStream s' d' → n.parent s' = n.parent s → d'.reader = d.reader → rank s' < rank s → st.eof s' d' = true) →
    n.wants st s d = true

/-- A task that has no inputs left to read ends what it sends. -/
def Prompt : Prop :=
  ∀ st, n.Reached st → ∀ s d, n.isStream s d → st.done s d = false → st.pend s d = [] →
    (∀ s' d', n.isStream s' d' → n.parent s' = s → d'.reader = d.writer → st.eof s' d' = true) → n.mayClose st s d = true

/-- How the tasks stop: `busy` tells whether a task still wants rows. A task that has ended everything it sends, because it read its inputs
to the end or because of a limit, is not busy; it may also stop earlier. A task that is not busy drops all its inputs. What a busy task
lost by dropping some of the streams of a connection does not use up its budget. -/
structure Stops (busy : State S α σ → S → Nat → Prop) : Prop where
  works : ∀ st, n.Reached st → ∀ s t, busy st s t → s = n.root ∨ ∃ d ∈ n.streams s, d.writer = t ∧ st.done s d = false
  drops : ∀ st, n.Reached st → ∀ s d, n.isStream s d → st.eof s d = false → ¬ busy st (n.parent s) d.reader → n.mayDrop st s d = true
  spare : ∀ st, n.Reached st → ∀ s d, n.isStream s d → busy st (n.parent s) d.reader → ∀ q w b,
    n.link s d.reader d.writer = .remote q w b → st.leak s d.reader d.writer < b

/-- Steps of this query, apart from failures, which may happen but need not. -/
def Concerns : Step S → Prop
  | .ask s d | .take s d | .eof s d | .drop s d | .push s d | .close s d | .send s d => n.isStream s d = true
  | .carry s r w => ∃ d, n.isStream s d = true ∧ d.reader = r ∧ d.writer = w
  | .fail .. => False

/-- Every step of the query that is not a failure is tried again and again. -/
def Fair (sched : Nat → Step S) : Prop := ∀ x, n.Concerns x → ∀ t, ∃ t' ≥ t, sched t' = x

end Net

end DD.Net
