/-
Tasks that read all their inputs and then send given rows: every network has them, and all of what they send arrives.
-/
import Verif.Props.Network
import Verif.Lemmas.NetworkFlow

namespace DD.Net.Net

variable {S α σ : Type} [DecidableEq S]

/-- Task `t` of stage `s` has seen the end of all its inputs, if `m` are the streams whose end was seen. -/
def readAll (n : Net S α σ) (m : List (S × Stream)) (s : S) (t : Nat) : Bool :=
  n.allStreams.all fun x => !(n.isStream x.1 x.2 && decide (n.parent x.1 = s) && decide (x.2.reader = t)) || decide (x ∈ m)

/-- The network with tasks that send `L`, each once it has seen the end of all its inputs. -/
def honest (n : Net S α σ) (L : S → Stream → List α) : Net S α (List (S × Stream)) where
  stages := n.stages
  root := n.root
  parent := n.parent
  depth := n.depth
  streams := n.streams
  link := n.link
  size := n.size
  error := n.error
  mem := []
  first := fun s d => if n.readAll [] s d.writer then L s d else []
  recv := fun m s d x => match x with
    | some _ => (m, fun _ => [])
    | none => ((s, d) :: m, fun d' => if n.readAll ((s, d) :: m) (n.parent s) d.reader then L (n.parent s) d' else [])
  wants := fun _ _ _ => false
  mayClose := fun _ _ _ => false
  mayDrop := fun _ _ _ => false

variable {n : Net S α σ} {L : S → Stream → List α} {rank : S → Nat}

theorem readAll_iff {m : List (S × Stream)} {s : S} {t : Nat} : n.readAll m s t = true ↔
    ∀ s' d', n.isStream s' d' = true → n.parent s' = s → d'.reader = t → (s', d') ∈ m := by
  unfold readAll
  rw [List.all_eq_true]
  constructor
  · intro h s' d' h1 h2 h3
    have := h (s', d') (mem_allStreams h1)
    simpa [h1, h2, h3] using this
  · intro h x _
    by_cases hc : n.isStream x.1 x.2 = true ∧ n.parent x.1 = s ∧ x.2.reader = t
    · simp [h x.1 x.2 hc.1 hc.2.1 hc.2.2]
    · have : (n.isStream x.1 x.2 && decide (n.parent x.1 = s) && decide (x.2.reader = t)) = false := by
        cases e : (n.isStream x.1 x.2 && decide (n.parent x.1 = s) && decide (x.2.reader = t)) with
        | false => rfl
        | true => exact absurd (by simpa [and_assoc] using e) hc
      simp [this]

/-- What the tasks of `honest` have done. -/
structure Honest (n : Net S α σ) (L : S → Stream → List α) (st : State S α (List (S × Stream))) : Prop where
  mem : ∀ s d, n.isStream s d = true → ((s, d) ∈ st.mem ↔ st.eof s d = true)
  made : ∀ s d, n.isStream s d = true → st.made s d = if n.readAll st.mem s d.writer then L s d else []
  done : ∀ s d, n.isStream s d = true → st.done s d = true → n.readAll st.mem s d.writer = true
  gone : ∀ s d, st.gone s d = false
  failed : ∀ s r w, st.failed s r w = false

theorem Honest.same {st st' : State S α (List (S × Stream))} (h : Honest n L st) (h1 : st'.mem = st.mem) (h2 : st'.eof = st.eof)
    (h3 : st'.made = st.made) (h4 : st'.done = st.done) (h5 : st'.gone = st.gone) (h6 : st'.failed = st.failed) : Honest n L st' := by
  constructor
  · rw [h1, h2]; exact h.mem
  · rw [h1, h3]; exact h.made
  · rw [h1, h4]; exact h.done
  · rw [h5]; exact h.gone
  · rw [h6]; exact h.failed

theorem honest_start : Honest n L ((n.honest L).inOrder rank).start where
  mem := by intro s d _; simp [start, inOrder, honest]
  made := by intro s d _; rfl
  done := by intro s d _ h; cases h
  gone := by intro s d; rfl
  failed := by intro s r w; rfl

/-- Every task that reads something sends something, unless it is the head stage. -/
def Sends (n : Net S α σ) : Prop := ∀ s d, n.isStream s d = true → n.parent s ≠ n.root → ∃ d' ∈ n.streams (n.parent s), d'.writer = d.reader

theorem honest_step (hpar : ∀ s ∈ n.stages, s ≠ n.root → n.parent s ∈ n.stages) (hsends : n.Sends)
    {st : State S α (List (S × Stream))} (h : Honest n L st) (x : Step S) (hx : ∀ s r w, x ≠ .fail s r w) : Honest n L (((n.honest L).inOrder rank).step st x) := by
  cases x with
  | fail s r w => exact absurd rfl (hx s r w)
  | ask s d =>
    unfold step; dsimp only
    split <;> first | exact h | exact h.same rfl rfl rfl rfl rfl rfl
  | push s d =>
    unfold step; dsimp only
    split
    · split
      · split <;> first | exact h | exact h.same rfl rfl rfl rfl rfl rfl
      · split <;> first | exact h | exact h.same rfl rfl rfl rfl rfl rfl
      · exact h
    · exact h
  | send s d =>
    unfold step; dsimp only
    split
    · split
      · split <;> first | exact h | exact h.same rfl rfl rfl rfl rfl rfl
      · exact h
    · exact h
  | carry s r w =>
    unfold step; dsimp only
    split
    · split
      · split <;> exact h.same rfl rfl rfl rfl rfl rfl
      · exact h
    · exact h
  | take s d =>
    unfold step; dsimp only
    split
    · split
      · refine h.same rfl rfl ?_ rfl rfl rfl
        funext s' d'
        simp [receive, inOrder, honest]
      · exact h
    · exact h
  | close s d =>
    unfold step; dsimp only
    split
    · rename_i hc
      simp only [Bool.and_eq_true] at hc
      refine ⟨h.mem, h.made, ?_, h.gone, h.failed⟩
      intro s' d' hs hd
      change set st.done s d true s' d' = true at hd
      rw [set_eq] at hd
      split at hd
      · rename_i e
        obtain ⟨rfl, rfl⟩ := e
        have hm := hc.2
        simp only [inOrder, honest, Bool.false_or, List.all_eq_true] at hm
        refine readAll_iff.mpr fun s1 d1 h1 h2 h3 => (h.mem s1 d1 h1).mpr ?_
        have := hm (s1, d1) (mem_allStreams (n := n.honest L) h1)
        change (!(n.isStream s1 d1 && decide (n.parent s1 = s') && decide (d1.reader = d'.writer)) || st.eof s1 d1) = true at this
        simpa [h1, h2, h3] using this
      · exact h.done s' d' hs hd
    · exact h
  | drop s d =>
    unfold step; dsimp only
    split
    · rename_i hc
      exfalso
      simp only [Bool.and_eq_true, Bool.not_eq_true'] at hc
      obtain ⟨⟨hs, he⟩, hm⟩ := hc
      change n.isStream s d = true at hs
      change (false || _ || _) = true at hm
      rw [Bool.false_or, Bool.or_eq_true_iff] at hm
      rcases hm with hm | hm
      · obtain ⟨y, _, hy⟩ := List.any_eq_true.mp hm
        simp only [Bool.and_eq_true] at hy
        rw [h.gone] at hy
        cases hy.2
      · rw [Bool.and_eq_true, List.all_eq_true] at hm
        obtain ⟨hne, hall⟩ := hm
        have hne : n.parent s ≠ n.root := of_decide_eq_true hne
        obtain ⟨d', hd', hw⟩ := hsends s d hs hne
        have := hall d' hd'
        simp only [hw, decide_true, Bool.not_true, Bool.false_or] at this
        have hs' : n.isStream (n.parent s) d' = true := by
          obtain ⟨h1, h2, _⟩ := isStream_iff.mp hs
          exact isStream_iff.mpr ⟨hpar s h1 h2, hne, hd'⟩
        have hra := readAll_iff.mp (h.done _ _ hs' this) s d hs rfl hw.symm
        rw [(h.mem s d hs).mp hra] at he
        cases he
    · exact h
  | eof s d =>
    unfold step; dsimp only
    split
    · rename_i hc
      simp only [Bool.and_eq_true] at hc
      obtain ⟨hr, _⟩ := hc
      unfold reads at hr
      simp only [Bool.and_eq_true, Bool.not_eq_true'] at hr
      obtain ⟨⟨⟨hs, he⟩, _⟩, _⟩ := hr
      change n.isStream s d = true at hs
      have hnew : (s, d) ∉ st.mem := fun hm => by rw [(h.mem s d hs).mp hm] at he; cases he
      have hnot : ∀ m, (s, d) ∉ m → n.readAll m (n.parent s) d.reader = false := by
        intro m hm
        cases e : n.readAll m (n.parent s) d.reader with
        | false => rfl
        | true => exact absurd (readAll_iff.mp e s d hs rfl rfl) hm
      have hother : ∀ s' t, ¬(s' = n.parent s ∧ t = d.reader) → n.readAll ((s, d) :: st.mem) s' t = n.readAll st.mem s' t := by
        intro s' t hne
        refine Bool.eq_iff_iff.mpr (readAll_iff.trans (Iff.trans ?_ readAll_iff.symm))
        refine ⟨fun h' s1 d1 h1 h2 h3 => ?_, fun h' s1 d1 h1 h2 h3 => List.mem_cons_of_mem _ (h' s1 d1 h1 h2 h3)⟩
        rcases List.mem_cons.mp (h' s1 d1 h1 h2 h3) with e | e
        · cases e
          exact absurd ⟨h2.symm, h3.symm⟩ hne
        · exact e
      refine ⟨?_, ?_, ?_, h.gone, h.failed⟩
      · intro s' d' hs'
        change (s', d') ∈ (s, d) :: st.mem ↔ set st.eof s d true s' d' = true
        rw [set_eq, List.mem_cons, Prod.mk.injEq, h.mem s' d' hs']
        split
        · rename_i e; simp [e]
        · rename_i e; simp [e]
      · intro s' d' hs'
        change (if s' = n.parent s ∧ d' ∈ n.streams (n.parent s) ∧ d'.writer = d.reader ∧ st.done (n.parent s) d' = false then
          st.made s' d' ++ (if n.readAll ((s, d) :: st.mem) (n.parent s) d.reader then L (n.parent s) d' else []) else st.made s' d')
            = if n.readAll ((s, d) :: st.mem) s' d'.writer then L s' d' else []
        by_cases hc : s' = n.parent s ∧ d'.writer = d.reader
        · obtain ⟨rfl, hw⟩ := hc
          have hnd : st.done (n.parent s) d' = false := by
            cases e : st.done (n.parent s) d' with
            | false => rfl
            | true =>
              have := h.done _ _ hs' e
              rw [hw, hnot _ hnew] at this
              cases this
          rw [if_pos ⟨rfl, (isStream_iff.mp hs').2.2, hw, hnd⟩, h.made _ _ hs', hw, hnot _ hnew]
          simp
        · rw [if_neg (fun e => hc ⟨e.1, e.2.2.1⟩), hother s' d'.writer hc, h.made s' d' hs']
      · intro s' d' hs' hd
        have := h.done s' d' hs' hd
        change n.readAll ((s, d) :: st.mem) s' d'.writer = true
        exact readAll_iff.mpr fun s1 d1 h1 h2 h3 => List.mem_cons_of_mem _ (readAll_iff.mp this s1 d1 h1 h2 h3)
    · exact h

theorem honest_runFor (hpar : ∀ s ∈ n.stages, s ≠ n.root → n.parent s ∈ n.stages) (hsends : n.Sends) (sched : Nat → Step S)
    (hquiet : ∀ t s r w, sched t ≠ .fail s r w) : ∀ t, Honest n L (((n.honest L).inOrder rank).runFor sched t)
  | 0 => honest_start
  | t + 1 => honest_step hpar hsends (honest_runFor hpar hsends sched hquiet t) _ (hquiet t)

/-- Such tasks come to an end, and everything they send arrives, if no connection fails. -/
theorem honest_ends (hok : n.Ok) (hroot : n.root ∈ n.stages) (hsends : n.Sends) (sched : Nat → Step S) (hfair : n.Fair sched)
    (hquiet : ∀ t s r w, sched t ≠ .fail s r w) :
    ∃ T, ∀ t, T ≤ t → ∀ s d, n.isStream s d = true →
      (((n.honest L).inOrder rank).runFor sched t).got s d = L s d ∧ (((n.honest L).inOrder rank).runFor sched t).made s d = L s d
        ∧ (((n.honest L).inOrder rank).runFor sched t).eof s d = true ∧ (((n.honest L).inOrder rank).runFor sched t).done s d = true
        ∧ (((n.honest L).inOrder rank).runFor sched t).gone s d = false
        ∧ (((n.honest L).inOrder rank).runFor sched t).failed s d.reader d.writer = false := by
  have hok' : (n.honest L).Ok := ⟨hok.parent, hok.depth, hok.head, hok.room⟩
  have hfair' : (n.honest L).Fair sched := fun x hx t => hfair x (by cases x <;> exact hx) t
  obtain ⟨T, hT⟩ := C77_ordered_reading_ends_partial (n.honest L) rank hok' hroot sched hfair'
  refine ⟨T, fun t ht => ?_⟩
  have hh := honest_runFor (L := L) (rank := rank) hok.parent hsends sched hquiet t
  have hre := runFor_reached ((n.honest L).inOrder rank) sched t
  have hfin := hT t ht
  generalize ((n.honest L).inOrder rank).runFor sched t = st at hh hre hfin
  have hdone : ∀ s d, n.isStream s d = true → st.eof s d = true → st.done s d = true := fun s d hs he =>
    over_done (n := (n.honest L).inOrder rank) (isStream_iff.mp hs).2.2 ((inv_reached hre).eof s d he (Or.inl (hh.gone s d)))
  have heof : ∀ k s d, n.depth s = k → n.isStream s d = true → st.eof s d = true := by
    intro k
    induction k using Nat.strongRecOn with
    | ind k ih =>
      intro s d hk hs
      by_cases hp : n.parent s = n.root
      · exact hfin s d hs hp
      · obtain ⟨d', hd', hw⟩ := hsends s d hs hp
        obtain ⟨h1, h2, _⟩ := isStream_iff.mp hs
        have hs' : n.isStream (n.parent s) d' = true := isStream_iff.mpr ⟨hok.parent s h1 h2, hp, hd'⟩
        have := ih _ (hk ▸ hok.depth s h1 h2) _ d' rfl hs'
        exact (hh.mem s d hs).mp (readAll_iff.mp (hh.done _ _ hs' (hdone _ _ hs' this)) s d hs rfl hw.symm)
  intro s d hs
  have he := heof _ s d rfl hs
  have hd := hdone s d hs he
  have hm : st.made s d = L s d := by rw [hh.made s d hs, if_pos (hh.done s d hs hd)]
  have hdel := delivered hre hs he (hh.gone s d)
  rw [if_neg (by rw [hh.failed]; decide)] at hdel
  exact ⟨hdel.trans hm, hm, he, hd, hh.gone s d, hh.failed _ _ _⟩

end DD.Net.Net
