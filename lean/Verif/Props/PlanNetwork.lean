/-
C77: planned queries end.
-/
import Verif.Lemmas.PlanNetwork
import Verif.Props.Network
import Verif.Props.Plan

namespace DD.Net

open DD.Tree DD.Tree.Rec

variable {Row α σ : Type}

/-- The buffers of a network can hold something. -/
def Room (b : Net Nat α σ) : Prop :=
  ∀ s r w queue window budget, b.link s r w = .remote queue window budget → 0 < queue ∧ 0 < window ∧ 0 < budget

theorem wired_placed {p : Plan Row} (h : Wired 1 p) : Placed 0 1 1 (planSites p) :=
  sites_placed p 0 1 1 1 _ (by decide) h (fun i hi => ⟨0, by simp; omega⟩) (by simp)

theorem planNet_ok {p : Plan Row} (h : Wired 1 p) {b : Net Nat α σ} (hroom : Room b) : (planNet p b).Ok := by
  have hpl := wired_placed h
  have key : ∀ s ∈ List.range ((planSites p).length + 1), s ≠ 0 → ∃ x, (planSites p)[s - 1]? = some x ∧ x.above < s := by
    intro s hs h0
    have hlt := List.mem_range.mp hs
    have hget : (planSites p)[s - 1]? = some ((planSites p)[s - 1]'(by omega)) := List.getElem?_eq_getElem _
    exact ⟨_, hget, by have := (hpl _ _ hget).1; omega⟩
  refine ⟨fun s hs h0 => ?_, fun s hs h0 => ?_, rfl, hroom⟩
  · obtain ⟨x, hx, hlt⟩ := key s hs h0
    have := List.mem_range.mp hs
    change (match (planSites p)[s - 1]? with | some x => x.above | none => 0) ∈ List.range _
    rw [hx]
    exact List.mem_range.mpr (by dsimp only; omega)
  · obtain ⟨x, hx, hlt⟩ := key s hs h0
    change (match (planSites p)[s - 1]? with | some x => x.above | none => 0) < s
    rw [hx]
    exact hlt

/-- A stream of the network of a plan is one of the streams of a boundary of the plan. -/
theorem planNet_stream {p : Plan Row} {b : Net Nat α σ} {s : Nat} {d : Stream} (h : (planNet p b).isStream s d = true) :
    ∃ x, 0 < s ∧ (planSites p)[s - 1]? = some x ∧ d ∈ x.streams ∧ (planNet p b).parent s = x.above := by
  obtain ⟨h1, h2, h3⟩ := Net.isStream_iff.mp h
  change s ≠ 0 at h2
  change d ∈ (if s = 0 then [] else match (planSites p)[s - 1]? with | some x => x.streams | none => []) at h3
  rw [if_neg h2] at h3
  cases hx : (planSites p)[s - 1]? with
  | none => rw [hx] at h3; cases h3
  | some x =>
    rw [hx] at h3
    refine ⟨x, by omega, rfl, h3, ?_⟩
    change (match (planSites p)[s - 1]? with | some x => x.above | none => 0) = _
    rw [hx]

/-- Every task that reads something sends something, unless it is the coordinator. -/
theorem planNet_sends {p : Plan Row} (h : Wired 1 p) (b : Net Nat α σ) : ∀ s d, (planNet p b).isStream s d = true →
    (planNet p b).parent s ≠ (planNet p b).root → ∃ d' ∈ (planNet p b).streams ((planNet p b).parent s), d'.writer = d.reader := by
  intro s d hs hne
  obtain ⟨x, h0, hx, hd, hpar⟩ := planNet_stream hs
  change (planNet p b).parent s ≠ 0 at hne
  rw [hpar] at hne ⊢
  obtain ⟨_, _, h3⟩ := wired_placed h _ _ hx
  rcases h3 with ⟨h3, _⟩ | ⟨j', s', h3, h4, h5⟩
  · exact absurd h3 hne
  · have hrd : ∃ r ∈ x.runs, d.reader = r.1 := by
      obtain ⟨r, hr, hd⟩ := List.mem_flatMap.mp hd
      obtain ⟨q, _, hd⟩ := List.mem_flatMap.mp hd
      refine ⟨r, hr, ?_⟩
      split at hd
      · obtain ⟨pull, _, rfl⟩ := List.mem_map.mp hd
        rfl
      · cases hd
    obtain ⟨r, hr, e⟩ := hrd
    obtain ⟨d', hd', hw⟩ := (wired_placed h _ _ h4).2.1 r.1 (h5 r hr)
    refine ⟨d', ?_, by rw [hw, e]⟩
    change d' ∈ (if x.above = 0 then [] else match (planSites p)[x.above - 1]? with | some x => x.streams | none => [])
    rw [if_neg hne, h3, show 1 + j' - 1 = j' by omega, h4]
    exact hd'

/-- **C77** (partial) Every planned query ends: in the network of streams that the boundaries of its plan open, if the tasks read their
inputs one after the other (in the order of their numbers, which is left to right), the coordinator sees the end of all results or drops
them, under every schedule that tries every step again and again, whatever the tasks compute, whichever connections are local, however
large messages and buffers are, and whenever tasks end what they send or stop reading, provided that a task that drops an input drops
all of them. -/
theorem C77_planned_queries_end_partial {env : Env Row} (he : EnvOk env) {p p' : Plan Row} {J : SInfo Row}
    (h : Src env .pre p J) (hrep : J.rep = false) (hroot : RootOk env p J) (hp : plan env p = .ok (some p'))
    (b : Net Nat α σ) (hroom : Room b) (sched : Nat → Step Nat) (hfair : (planNet p' b).Fair sched) :
    ∃ T, ∀ t, T ≤ t → (planNet p' b).Finished (((planNet p' b).inOrder id).runFor sched t) := by
  obtain ⟨d, hl, _⟩ := plan_src he h hrep hroot hp
  have hw := legal_wired hl (by decide)
  exact Net.C77_ordered_reading_ends_partial _ id (planNet_ok hw hroom) (List.mem_range.mpr (Nat.succ_pos _)) sched hfair

/-- **C77** (partial) The same for tasks that may read their inputs in any other way, as long as a task that can send goes on reading the
first of its inputs that has not ended, in some order of the inputs (`Orderly`), ends its partitions when no input is left to read
(`Prompt`), and drops all its inputs when it stops (`Stops`). -/
theorem C77_planned_queries_end_orderly_partial {env : Env Row} (he : EnvOk env) {p p' : Plan Row} {J : SInfo Row}
    (h : Src env .pre p J) (hrep : J.rep = false) (hroot : RootOk env p J) (hp : plan env p = .ok (some p'))
    (b : Net Nat α σ) (hroom : Room b) {rank : Nat → Nat} (hord : (planNet p' b).Orderly rank) (hpr : (planNet p' b).Prompt)
    {busy : State Nat α σ → Nat → Nat → Prop} (hstop : (planNet p' b).Stops busy) (sched : Nat → Step Nat) (hfair : (planNet p' b).Fair sched) :
    ∃ T, ∀ t, T ≤ t → (planNet p' b).Finished ((planNet p' b).runFor sched t) := by
  obtain ⟨d, hl, _⟩ := plan_src he h hrep hroot hp
  have hw := legal_wired hl (by decide)
  exact Net.C77_ends_partial _ (planNet_ok hw hroom) (List.mem_range.mpr (Nat.succ_pos _)) hord hpr hstop sched hfair

/-- **C77** Every task of a planned query that reads something is asked for something, so its inputs are not left alone. -/
theorem C77_planned_tasks_are_asked {env : Env Row} (he : EnvOk env) {p p' : Plan Row} {J : SInfo Row}
    (h : Src env .pre p J) (hrep : J.rep = false) (hroot : RootOk env p J) (hp : plan env p = .ok (some p'))
    (b : Net Nat α σ) : ∀ s d, (planNet p' b).isStream s d = true → (planNet p' b).parent s ≠ (planNet p' b).root →
      ∃ d' ∈ (planNet p' b).streams ((planNet p' b).parent s), d'.writer = d.reader := by
  obtain ⟨d, hl, _⟩ := plan_src he h hrep hroot hp
  exact planNet_sends (legal_wired hl (by decide)) b

/-- **C77** Whatever its tasks do, a planned query does only finitely many things. -/
theorem C77_planned_queries_come_to_rest {env : Env Row} (he : EnvOk env) {p p' : Plan Row} {J : SInfo Row}
    (h : Src env .pre p J) (hrep : J.rep = false) (hroot : RootOk env p J) (hp : plan env p = .ok (some p'))
    (b : Net Nat α σ) (hroom : Room b) (sched : Nat → Step Nat) :
    ∃ T, ∀ t, T ≤ t → (planNet p' b).runFor sched t = (planNet p' b).runFor sched T := by
  obtain ⟨d, hl, _⟩ := plan_src he h hrep hroot hp
  exact Net.C77_comes_to_rest _ (planNet_ok (legal_wired hl (by decide)) hroom) sched

/-- Every query has a schedule that tries every step again and again and in which nothing fails. -/
theorem quiet_sched (n : Net Nat α σ) : ∃ sched, n.Fair sched ∧ ∀ t s r w, sched t ≠ .fail s r w := by
  by_cases hne : n.allSteps = []
  · refine ⟨fun _ => .carry 0 0 0, fun x hx t => ?_, fun t s r w => by simp⟩
    have hno : ∀ s d, n.isStream s d = true → False := by
      intro s d h
      have : Step.ask s d ∈ n.allSteps := List.mem_flatMap.mpr ⟨_, Net.mem_allStreams h, by simp⟩
      rw [hne] at this
      cases this
    cases x with
    | carry s r w => obtain ⟨d, hd, _⟩ := hx; exact (hno s d hd).elim
    | ask s d => exact (hno s d hx).elim
    | take s d => exact (hno s d hx).elim
    | eof s d => exact (hno s d hx).elim
    | drop s d => exact (hno s d hx).elim
    | push s d => exact (hno s d hx).elim
    | close s d => exact (hno s d hx).elim
    | send s d => exact (hno s d hx).elim
    | fail s r w => cases hx
  · refine ⟨_, Net.fair_exists n hne, fun t s r w e => ?_⟩
    have hmem := List.getElem_mem (l := n.allSteps) (Nat.mod_lt t (List.length_pos_iff.mpr hne))
    rw [e] at hmem
    obtain ⟨x, _, hx⟩ := List.mem_flatMap.mp hmem
    simp at hx

theorem fair_sched (n : Net Nat α σ) : ∃ sched, n.Fair sched := by
  obtain ⟨sched, h, _⟩ := quiet_sched n
  exact ⟨sched, h⟩

/-- Tasks that send on what they receive, to a coordinator that drops everything when it has seen the end of one partition, over gRPC connections with the default budget of 64 MiB, except that the tasks with equal numbers
are in one process. -/
def Demo.base : Net Nat Nat Unit where
  stages := []
  root := 0
  parent := id
  depth := id
  streams := fun _ => []
  link := fun _ r w => if r = w then .local else .remote 2 16 67108864
  size := id
  error := fun _ _ _ => 0
  mem := ()
  first := fun s d => if 2 < s then List.replicate 10 (1000000 * (d.partition + 1)) else []
  recv := fun _ _ d x => ((), fun d' => if d'.partition % 2 = d.partition % 2 then x.toList else [])
  wants := fun _ _ _ => true
  mayClose := fun _ s _ => decide (2 < s)
  mayDrop := fun st s _ => decide (s = 1) && st.eof 1 ⟨0, 0, 0⟩

theorem Demo.base_room : Room Demo.base := by
  intro s r w queue window budget h
  have h : (if r = w then Link.local else .remote 2 16 67108864) = .remote queue window budget := h
  split at h
  · cases h
  · cases h; decide

/-- For each stage below the head stage: the stage that reads it, its tasks, the partitions of its boundary, and its streams. -/
def Demo.shape (p : Plan Row) : List (Nat × Nat × Nat × Nat) :=
  (planSites p).map fun s : Site Row => (s.above, s.kind.tasks, s.kind.netParts, s.streams.length)

/-- Non-vacuity: `SUM … GROUP BY` over a join whose build side is broadcast. -/
example : ∃ p', plan Tree.Demo.sess (twoStep Tree.Demo.sum id 2 Tree.Demo.input) = .ok (some p')
    ∧ Demo.shape p' = [(0, 3, 6, 6), (1, 3, 2, 18), (2, 3, 2, 18)]
    ∧ ∃ sched, (planNet p' Demo.base).Fair sched
      ∧ ∃ T, ∀ t, T ≤ t → (planNet p' Demo.base).Finished (((planNet p' Demo.base).inOrder id).runFor sched t) := by
  obtain ⟨p', hp⟩ := planned_of (env := Tree.Demo.sess) (p := twoStep Tree.Demo.sum id 2 Tree.Demo.input) (by decide +kernel)
  have hsrc := twoStep_src Tree.Demo.sum id (n := 2) (by decide) Tree.Demo.input_src
  have hroot : RootOk Tree.Demo.sess (twoStep Tree.Demo.sum id 2 Tree.Demo.input) ⟨none, false, false, .perm, false⟩ := by
    refine .inr fun p1 h1 => ?_
    have : normalize Tree.Demo.sess (twoStep Tree.Demo.sum id 2 Tree.Demo.input)
        = .ok (twoStep Tree.Demo.sum id 2 Tree.Demo.input) := by rfl
    rw [this] at h1
    cases h1
    exact ⟨by decide, rfl⟩
  have hshape : (match plan Tree.Demo.sess (twoStep Tree.Demo.sum id 2 Tree.Demo.input) with
      | .ok (some p') => Demo.shape p'
      | _ => []) = [(0, 3, 6, 6), (1, 3, 2, 18), (2, 3, 2, 18)] := by decide +kernel
  rw [hp] at hshape
  obtain ⟨sched, hfair⟩ := fair_sched (planNet p' Demo.base)
  exact ⟨p', hp, hshape, sched, hfair, C77_planned_queries_end_partial Tree.Demo.sess_ok hsrc rfl hroot hp _ Demo.base_room _ hfair⟩

end DD.Net
