/-
Lemmas for C77.
-/
import Verif.Spec.Network

namespace DD.Net

variable {S α σ : Type} [DecidableEq S]

@[simp] theorem set_self {β : Type} (f : S → Stream → β) (s : S) (d : Stream) (x : β) : set f s d x s d = x := by simp [set]

theorem set_ne {β : Type} (f : S → Stream → β) {s s' : S} {d d' : Stream} (x : β) (h : ¬(s' = s ∧ d' = d)) : set f s d x s' d' = f s' d' := by
  simp [set, h]

theorem set_eq {β : Type} (f : S → Stream → β) (s : S) (d : Stream) (x : β) (s' : S) (d' : Stream) :
    set f s d x s' d' = if s' = s ∧ d' = d then x else f s' d' := rfl

theorem setConn_eq {β : Type} (f : S → Nat → Nat → β) (s : S) (r w : Nat) (x : β) (s' : S) (r' w' : Nat) :
    setConn f s r w x s' r' w' = if s' = s ∧ r' = r ∧ w' = w then x else f s' r' w' := rfl

namespace Net
variable {n : Net S α σ}

theorem isStream_iff {s : S} {d : Stream} : n.isStream s d = true ↔ s ∈ n.stages ∧ s ≠ n.root ∧ d ∈ n.streams s := by
  simp [isStream, and_assoc]

omit [DecidableEq S] in
theorem mem_conn {s : S} {r w : Nat} {d : Stream} : d ∈ n.conn s r w ↔ d ∈ n.streams s ∧ d.reader = r ∧ d.writer = w := by
  simp [conn]

/-! ### Invariants -/

/-- Nothing more comes over the connection of a stream. -/
def Over (n : Net S α σ) (st : State S α σ) (s : S) (d : Stream) : Prop :=
  match n.link s d.reader d.writer with
  | .remote .. => st.wire s d.reader d.writer = [] ∧ ∀ d' ∈ n.conn s d.reader d.writer, st.done s d' = true ∧ st.fwd s d' = []
  | .local => st.done s d = true

structure Inv (n : Net S α σ) (st : State S α σ) : Prop where
  wire : ∀ s r w x, x ∈ st.wire s r w → n.isStream s x.1 = true ∧ x.1.reader = r ∧ x.1.writer = w
  done : ∀ s d, st.done s d = true → st.pend s d = []
  queue : ∀ s d, st.eof s d = true → st.queue s d = []
  eof : ∀ s d, st.eof s d = true → (st.gone s d = false ∨ n.link s d.reader d.writer = .local
    ∨ ∀ d' ∈ n.conn s d.reader d.writer, st.eof s d' = true) → Over n st s d

theorem inv_start : Inv n n.start where
  wire := by intro s r w x hx; simp [start] at hx
  done := by intro s d h; simp [start] at h
  queue := by intro s d h; simp [start] at h
  eof := by intro s d h; simp [start] at h

omit [DecidableEq S] in
theorem ended_iff {st : State S α σ} {s : S} {d : Stream} : n.ended st s d = true ↔ st.queue s d = [] ∧ Over n st s d := by
  unfold ended Over
  cases n.link s d.reader d.writer with
  | remote q w b =>
    simp only [Bool.and_eq_true, List.isEmpty_iff, closed, List.all_eq_true]
    constructor
    · rintro ⟨⟨h1, h2⟩, h3⟩; exact ⟨h3, h2, h1⟩
    · rintro ⟨h3, h2, h1⟩; exact ⟨⟨h1, h2⟩, h3⟩
  | «local» =>
    simp only [Bool.and_eq_true, List.isEmpty_iff]
    exact and_comm

omit [DecidableEq S] in
theorem over_remote {st : State S α σ} {s : S} {d : Stream} {q w b : Nat} (hl : n.link s d.reader d.writer = .remote q w b) :
    Over n st s d ↔ st.wire s d.reader d.writer = [] ∧ ∀ d' ∈ n.conn s d.reader d.writer, st.done s d' = true ∧ st.fwd s d' = [] := by
  unfold Over
  rw [hl]

omit [DecidableEq S] in
theorem over_local {st : State S α σ} {s : S} {d : Stream} (hl : n.link s d.reader d.writer = .local) : Over n st s d ↔ st.done s d = true := by
  unfold Over
  rw [hl]

omit [DecidableEq S] in
theorem over_done {st : State S α σ} {s : S} {d : Stream} (hd : d ∈ n.streams s) (h : Over n st s d) : st.done s d = true := by
  cases hl : n.link s d.reader d.writer with
  | remote q w b => exact (((over_remote hl).mp h).2 d (mem_conn.mpr ⟨hd, rfl, rfl⟩)).1
  | «local» => exact (over_local hl).mp h

omit [DecidableEq S] in
/-- `Over` only depends on what the writer did and on what is under way. -/
theorem over_mono {st st' : State S α σ} {s : S} {d : Stream} (h : Over n st s d)
    (hdone : ∀ d', st.done s d' = true → st'.done s d' = true)
    (hfwd : ∀ d', d' ∈ n.streams s → st.done s d' = true → st.fwd s d' = [] → st'.fwd s d' = [])
    (hwire : (∀ d' ∈ n.conn s d.reader d.writer, st.fwd s d' = []) → st.wire s d.reader d.writer = [] → st'.wire s d.reader d.writer = []) :
    Over n st' s d := by
  cases hl : n.link s d.reader d.writer with
  | remote q w b =>
    rw [over_remote hl] at h ⊢
    refine ⟨hwire (fun d' hd' => (h.2 d' hd').2) h.1, fun d' hd' => ?_⟩
    obtain ⟨h1, h2⟩ := h.2 d' hd'
    exact ⟨hdone d' h1, hfwd d' (mem_conn.mp hd').1 h1 h2⟩
  | «local» =>
    rw [over_local hl] at h ⊢
    exact hdone d h

omit [DecidableEq S] in
/-- Streams of one gRPC connection are over at the same time. -/
theorem over_conn {st : State S α σ} {s : S} {d d' : Stream} (hl : n.link s d.reader d.writer ≠ .local)
    (hr : d'.reader = d.reader) (hw : d'.writer = d.writer) (h : Over n st s d) : Over n st s d' := by
  unfold Over at h ⊢
  rw [hr, hw]
  cases hl' : n.link s d.reader d.writer with
  | remote q w b => rw [hl'] at h; exact h
  | «local» => exact absurd hl' hl

theorem receive_pend_done {st : State S α σ} {s : S} {d : Stream} {x : Option α} {s' d'} (h : st.done s' d' = true) :
    (n.receive st s d x).pend s' d' = st.pend s' d' := by
  unfold receive
  dsimp only
  rw [if_neg]
  rintro ⟨rfl, _, _, h'⟩
  rw [h] at h'; cases h'

theorem inv_receive {st : State S α σ} (h : Inv n st) (s : S) (d : Stream) (x : Option α) : Inv n (n.receive st s d x) where
  wire := h.wire
  done s' d' hd := (receive_pend_done (st := st) hd).trans (h.done s' d' hd)
  queue := h.queue
  eof := h.eof

/-- A stream that is read to the end, or dropped. -/
theorem inv_end {st st' : State S α σ} {s : S} {d : Stream} (h : Inv n st) (hwire : ∀ s r w x, x ∈ st'.wire s r w → x ∈ st.wire s r w)
    (hdone : ∀ s d, st'.done s d = true → st'.pend s d = []) (hqueue : ∀ s' d', st'.queue s' d' = if s' = s ∧ d' = d then [] else st.queue s' d')
    (heof : ∀ s' d', st'.eof s' d' = if s' = s ∧ d' = d then true else st.eof s' d')
    (hgone : ∀ s' d', ¬ (s' = s ∧ d' = d) → st'.gone s' d' = st.gone s' d')
    (hover : ∀ s' d', Over n st s' d' → Over n st' s' d')
    (hlocal : n.link s d.reader d.writer = .local ∨ st'.gone s d = false → Over n st' s d)
    (hall : n.link s d.reader d.writer ≠ .local → (∀ d' ∈ n.conn s d.reader d.writer, st'.eof s d' = true) → Over n st' s d) :
    Inv n st' where
  wire s r w x hx := h.wire s r w x (hwire s r w x hx)
  done := hdone
  queue s' d' he := by
    rw [hqueue]
    split
    · rfl
    · rename_i e
      rw [heof, if_neg e] at he
      exact h.queue s' d' he
  eof s' d' he hor := by
    by_cases e : s' = s ∧ d' = d
    · obtain ⟨rfl, rfl⟩ := e
      rcases hor with hg | hl | ha
      · exact hlocal (Or.inr hg)
      · exact hlocal (Or.inl hl)
      · by_cases hl : n.link s' d'.reader d'.writer = .local
        · exact hlocal (Or.inl hl)
        · exact hall hl ha
    · rw [heof, if_neg e] at he
      rcases hor with hg | hl | ha
      · rw [hgone s' d' e] at hg
        exact hover _ _ (h.eof s' d' he (Or.inl hg))
      · exact hover _ _ (h.eof s' d' he (Or.inr (Or.inl hl)))
      · by_cases hl : n.link s' d'.reader d'.writer = .local
        · exact hover _ _ (h.eof s' d' he (Or.inr (Or.inl hl)))
        · by_cases e2 : s' = s ∧ d'.reader = d.reader ∧ d'.writer = d.writer
          · obtain ⟨rfl, hr, hw⟩ := e2
            rw [hr, hw] at hl ha
            exact over_conn hl hr hw (hall hl ha)
          · refine hover _ _ (h.eof s' d' he (Or.inr (Or.inr fun d'' hd'' => ?_)))
            have := ha d'' hd''
            rw [heof, if_neg] at this
            · exact this
            · rintro ⟨rfl, rfl⟩
              obtain ⟨_, h2, h3⟩ := mem_conn.mp hd''
              exact e2 ⟨rfl, h2.symm, h3.symm⟩

theorem dropped_eof (st : State S α σ) (s : S) (d : Stream) : (n.dropped st s d).eof = set st.eof s d true := by
  unfold dropped
  split
  · rfl
  · dsimp only
    split <;> rfl

theorem inv_drop {st : State S α σ} (h : Inv n st) (s : S) (d : Stream) : Inv n (n.dropped st s d) := by
  unfold dropped
  split
  · rename_i hl
    refine inv_end (s := s) (d := d) h (fun _ _ _ _ hx => hx) ?_ (fun _ _ => rfl) (fun _ _ => rfl) (fun s' d' e => set_ne _ _ e) ?_ ?_ ?_
    · intro s' d' hd
      change set st.pend s d [] s' d' = []
      change set st.done s d true s' d' = true at hd
      rw [set_eq] at hd ⊢
      split
      · rfl
      · rename_i e
        rw [if_neg e] at hd
        exact h.done s' d' hd
    · intro s' d' ho
      refine over_mono ho (fun d'' hd'' => ?_) (fun _ _ _ h => h) fun _ h => h
      change set st.done s d true s' d'' = true
      rw [set_eq]
      split
      · rfl
      · exact hd''
    · intro _
      rw [over_local hl]
      exact set_self _ _ _ _
    · intro hne; exact absurd hl hne
  · rename_i q w b hl
    dsimp only
    split
    · refine inv_end (s := s) (d := d) h ?_ ?_ (fun _ _ => rfl) (fun _ _ => rfl) (fun s' d' e => set_ne _ _ e) ?_ ?_ ?_
      · intro s' r' w' x hx
        change x ∈ setConn st.wire s d.reader d.writer [] s' r' w' at hx
        rw [setConn_eq] at hx
        split at hx
        · cases hx
        · exact hx
      · intro s' d' hd
        change (if s' = s ∧ d'.reader = d.reader ∧ d'.writer = d.writer then true else st.done s' d') = true at hd
        change (if s' = s ∧ d'.reader = d.reader ∧ d'.writer = d.writer then [] else st.pend s' d') = []
        split
        · rfl
        · rename_i e
          rw [if_neg e] at hd
          exact h.done s' d' hd
      · intro s' d' ho
        refine over_mono ho (fun d'' hd'' => ?_) (fun d'' _ _ h => ?_) fun _ h => ?_
        · change (if s' = s ∧ d''.reader = d.reader ∧ d''.writer = d.writer then true else st.done s' d'') = true
          split
          · rfl
          · exact hd''
        · change (if s' = s ∧ d''.reader = d.reader ∧ d''.writer = d.writer then [] else st.fwd s' d'') = []
          split
          · rfl
          · exact h
        · change setConn st.wire s d.reader d.writer [] s' d'.reader d'.writer = []
          rw [setConn_eq]
          split
          · rfl
          · exact h
      all_goals
        intros
        rw [over_remote hl]
        refine ⟨?_, fun d' hd' => ?_⟩
        · change setConn st.wire s d.reader d.writer [] s d.reader d.writer = []
          rw [setConn_eq, if_pos ⟨rfl, rfl, rfl⟩]
        · obtain ⟨_, h2, h3⟩ := mem_conn.mp hd'
          exact ⟨if_pos ⟨rfl, h2, h3⟩, if_pos ⟨rfl, h2, h3⟩⟩
    · rename_i hall
      refine inv_end (s := s) (d := d) h (fun _ _ _ _ hx => hx) h.done (fun _ _ => rfl) (fun _ _ => rfl) (fun s' d' e => set_ne _ _ e)
        (fun _ _ ho => ho) ?_ ?_
      · rintro (hl' | hg)
        · rw [hl] at hl'; cases hl'
        · change set st.gone s d true s d = false at hg
          rw [set_self] at hg; cases hg
      · intro _ ha
        exact absurd (List.all_eq_true.mpr ha) hall

theorem mayFail_iff {st : State S α σ} {s : S} {r w : Nat} : n.mayFail st s r w = true ↔ (∃ q v b, n.link s r w = .remote q v b)
    ∧ st.asked s r w = true ∧ st.failed s r w = false ∧ (∃ d ∈ n.conn s r w, n.isStream s d = true ∧ st.eof s d = false)
    ∧ ∀ d ∈ n.conn s r w, st.eof s d = true → st.gone s d = true := by
  unfold mayFail
  simp only [Bool.and_eq_true, Bool.not_eq_true', List.any_eq_true, List.all_eq_true, Bool.or_eq_true_iff]
  have h1 : (n.link s r w).isRemote = true ↔ ∃ q v b, n.link s r w = .remote q v b := by
    cases n.link s r w <;> simp [Link.isRemote]
  have h2 : (∀ d ∈ n.conn s r w, st.eof s d = false ∨ st.gone s d = true) ↔ ∀ d ∈ n.conn s r w, st.eof s d = true → st.gone s d = true := by
    refine forall_congr' fun d => forall_congr' fun _ => ?_
    cases st.eof s d <;> simp
  rw [h1, h2]
  simp only [and_assoc]

theorem inv_fail {st : State S α σ} (h : Inv n st) {s : S} {r w : Nat} (hf : n.mayFail st s r w = true) : Inv n (n.broken st s r w) := by
  obtain ⟨⟨q, v, b, hl⟩, _, _, _, hall⟩ := mayFail_iff.mp hf
  constructor
  · intro s' r' w' x hx
    change x ∈ setConn st.wire s r w [] s' r' w' at hx
    rw [setConn_eq] at hx
    split at hx
    · cases hx
    · exact h.wire s' r' w' x hx
  · intro s' d' hd
    change (if s' = s ∧ d'.reader = r ∧ d'.writer = w then true else st.done s' d') = true at hd
    change (if s' = s ∧ d'.reader = r ∧ d'.writer = w then [] else st.pend s' d') = []
    split
    · rfl
    · rename_i e
      rw [if_neg e] at hd
      exact h.done s' d' hd
  · intro s' d' he
    change (if s' = s ∧ d' ∈ n.conn s r w ∧ st.gone s d' = false then st.queue s' d' ++ [n.error s r w] else st.queue s' d') = []
    split
    · rename_i e
      obtain ⟨rfl, hd, hg⟩ := e
      rw [hall d' hd he] at hg
      cases hg
    · exact h.queue s' d' he
  · intro s' d' he hor
    by_cases e : s' = s ∧ d'.reader = r ∧ d'.writer = w
    · obtain ⟨rfl, rfl, rfl⟩ := e
      refine (over_remote hl).mpr ⟨?_, fun d'' hd'' => ?_⟩
      · change setConn st.wire s' d'.reader d'.writer [] s' d'.reader d'.writer = []
        rw [setConn_eq, if_pos ⟨rfl, rfl, rfl⟩]
      · have hc := mem_conn.mp hd''
        change (if s' = s' ∧ d''.reader = d'.reader ∧ d''.writer = d'.writer then true else st.done s' d'') = true
          ∧ (if s' = s' ∧ d''.reader = d'.reader ∧ d''.writer = d'.writer then [] else st.fwd s' d'') = []
        rw [if_pos ⟨rfl, hc.2⟩, if_pos ⟨rfl, hc.2⟩]
        exact ⟨rfl, rfl⟩
    · refine over_mono (h.eof s' d' he hor) (fun d'' hd => ?_) (fun d'' _ _ hf => ?_) fun _ hw => ?_
      · change (if s' = s ∧ d''.reader = r ∧ d''.writer = w then true else st.done s' d'') = true
        split
        · rfl
        · exact hd
      · change (if s' = s ∧ d''.reader = r ∧ d''.writer = w then [] else st.fwd s' d'') = []
        split
        · rfl
        · exact hf
      · change setConn st.wire s r w [] s' d'.reader d'.writer = []
        rw [setConn_eq]
        split
        · rfl
        · exact hw

theorem inv_step {st : State S α σ} (h : Inv n st) (x : Step S) : Inv n (n.step st x) := by
  cases x with
  | ask s d =>
    unfold step; dsimp only
    split
    · exact ⟨h.wire, h.done, h.queue, h.eof⟩
    · exact h
  | take s d =>
    unfold step; dsimp only
    split
    · rename_i hr
      split
      · rename_i a rest hq
        refine inv_receive (st := { st with queue := set st.queue s d rest, got := set st.got s d (st.got s d ++ [a]) }) ⟨h.wire, h.done, ?_, h.eof⟩ s d _
        intro s' d' he
        have h1 := h.queue s' d' he
        change set st.queue s d rest s' d' = []
        rw [set_eq]
        split
        · rename_i e
          rw [e.1, e.2, hq] at h1; cases h1
        · exact h1
      · exact h
    · exact h
  | eof s d =>
    unfold step; dsimp only
    split
    · rename_i hr
      rw [Bool.and_eq_true] at hr
      obtain ⟨hq, ho⟩ := ended_iff.mp hr.2
      refine inv_receive (st := { st with eof := set st.eof s d true }) ?_ s d _
      refine inv_end (s := s) (d := d) h (fun _ _ _ _ hx => hx) h.done ?_ (fun _ _ => rfl) (fun _ _ _ => rfl) (fun _ _ ho => ho)
        (fun _ => ho) (fun _ _ => ho)
      intro s' d'
      split
      · rename_i e
        rw [e.1, e.2]
        exact hq
      · rfl
    · exact h
  | drop s d =>
    unfold step; dsimp only
    split
    · exact inv_drop h s d
    · exact h
  | push s d =>
    unfold step; dsimp only
    split
    · rename_i hr
      rw [Bool.and_eq_true] at hr
      have hmem := (isStream_iff.mp hr.1).2.2
      split
      · rename_i a rest q w b hp hl
        split
        · refine ⟨h.wire, ?_, h.queue, ?_⟩
          · intro s' d' hd
            change set st.pend s d rest s' d' = []
            rw [set_eq]
            split
            · rename_i e
              have := h.done s' d' hd
              rw [e.1, e.2, hp] at this; cases this
            · exact h.done s' d' hd
          · intro s' d' he hor
            refine over_mono (h.eof s' d' he hor) (fun _ h => h) (fun d'' _ hd hf => ?_) fun _ h => h
            change set st.fwd s d _ s' d'' = []
            rw [set_eq]
            split
            · rename_i e
              have := h.done s' d'' hd
              rw [e.1, e.2, hp] at this; cases this
            · exact hf
        · exact h
      · rename_i a rest hp hl
        split
        · refine ⟨h.wire, ?_, ?_, h.eof⟩
          · intro s' d' hd
            change set st.pend s d rest s' d' = []
            rw [set_eq]
            split
            · rename_i e
              have := h.done s' d' hd
              rw [e.1, e.2, hp] at this; cases this
            · exact h.done s' d' hd
          · intro s' d' he
            change set st.queue s d [a] s' d' = []
            rw [set_eq]
            split
            · rename_i e
              rw [e.1, e.2] at he
              have := h.done s d ((over_local hl).mp (h.eof s d he (Or.inr (Or.inl hl))))
              rw [hp] at this; cases this
            · exact h.queue s' d' he
        · exact h
      · exact h
    · exact h
  | close s d =>
    unfold step; dsimp only
    split
    · rename_i hr
      simp only [Bool.and_eq_true, List.isEmpty_iff] at hr
      refine ⟨h.wire, ?_, h.queue, ?_⟩
      · intro s' d' hd
        change set st.done s d true s' d' = true at hd
        rw [set_eq] at hd
        split at hd
        · rename_i e
          rw [e.1, e.2]; exact hr.1.2
        · exact h.done s' d' hd
      · intro s' d' he hor
        refine over_mono (h.eof s' d' he hor) (fun d'' hd => ?_) (fun _ _ _ h => h) fun _ h => h
        change set st.done s d true s' d'' = true
        rw [set_eq]
        split
        · rfl
        · exact hd
    · exact h
  | send s d =>
    unfold step; dsimp only
    split
    · rename_i hr
      split
      · rename_i a rest q w b hf hl
        split
        · refine ⟨?_, h.done, h.queue, ?_⟩
          · intro s' r' w' y hy
            change y ∈ setConn st.wire s d.reader d.writer _ s' r' w' at hy
            rw [setConn_eq] at hy
            split at hy
            · rename_i e
              obtain ⟨rfl, rfl, rfl⟩ := e
              rcases List.mem_append.mp hy with hy | hy
              · exact h.wire _ _ _ y hy
              · rw [List.mem_singleton] at hy
                subst hy
                exact ⟨hr, rfl, rfl⟩
            · exact h.wire s' r' w' y hy
          · intro s' d' he hor
            refine over_mono (h.eof s' d' he hor) (fun _ h => h) (fun d'' _ _ hf' => ?_) fun hfs hw => ?_
            · change set st.fwd s d _ s' d'' = []
              rw [set_eq]
              split
              · rename_i e
                rw [e.1, e.2, hf] at hf'; cases hf'
              · exact hf'
            · change setConn st.wire s d.reader d.writer _ s' d'.reader d'.writer = []
              rw [setConn_eq]
              split
              · rename_i e
                have := hfs d (mem_conn.mpr ⟨by rw [e.1]; exact (isStream_iff.mp hr).2.2, e.2.1.symm, e.2.2.symm⟩)
                rw [e.1, hf] at this; cases this
              · exact hw
        · exact h
      · exact h
    · exact h
  | carry s r w =>
    unfold step; dsimp only
    split
    · rename_i q w' budget d a rest hl hw
      have hwire : ∀ s' r' w' y, y ∈ setConn st.wire s r w rest s' r' w' → y ∈ st.wire s' r' w' := by
        intro s' r' w' y hy
        rw [setConn_eq] at hy
        split at hy
        · rename_i e
          obtain ⟨rfl, rfl, rfl⟩ := e
          rw [hw]; exact List.mem_cons_of_mem _ hy
        · exact hy
      have hover : ∀ s' d', Over n st s' d' → Over n { st with wire := setConn st.wire s r w rest } s' d' := by
        intro s' d' ho
        refine over_mono ho (fun _ h => h) (fun _ _ _ h => h) fun _ hw' => ?_
        change setConn st.wire s r w rest s' d'.reader d'.writer = []
        rw [setConn_eq]
        split
        · rename_i e
          rw [e.1, e.2.1, e.2.2, hw] at hw'; cases hw'
        · exact hw'
      split
      · obtain ⟨hd1, hd2, hd3⟩ := h.wire s r w (d, a) (by rw [hw]; simp)
        dsimp only at hd1 hd2 hd3
        split
        · exact ⟨fun s' r' w' y hy => h.wire s' r' w' y (hwire _ _ _ _ hy), h.done, h.queue, fun s' d' he hor => hover _ _ (h.eof s' d' he hor)⟩
        · rename_i hg
          refine ⟨fun s' r' w' y hy => h.wire s' r' w' y (hwire _ _ _ _ hy), h.done, ?_, fun s' d' he hor => hover _ _ (h.eof s' d' he hor)⟩
          intro s' d' he
          change set st.queue s d _ s' d' = []
          rw [set_eq]
          split
          · rename_i e
            exfalso
            rw [e.1, e.2] at he
            have ho := h.eof s d he (Or.inl (by simpa using hg))
            rw [over_remote (q := q) (w := w') (b := budget) (by rw [hd2, hd3]; exact hl), hd2, hd3, hw] at ho
            cases ho.1
          · exact h.queue s' d' he
      · exact h
    · exact h
  | fail s r w =>
    unfold step; dsimp only
    split
    · rename_i hf
      exact inv_fail h hf
    · exact h

theorem inv_foldl : ∀ (steps : List (Step S)) (st : State S α σ), Inv n st → Inv n (steps.foldl n.step st)
  | [], _, h => h
  | x :: rest, _, h => inv_foldl rest _ (inv_step h x)

theorem inv_reached {st : State S α σ} (h : n.Reached st) : Inv n st := by
  obtain ⟨steps, rfl⟩ := h
  exact inv_foldl steps _ inv_start

/-! ### Nothing can happen -/

/-- Nothing can happen any more. -/
def Stuck (n : Net S α σ) (st : State S α σ) : Prop := ∀ x, n.Concerns x → n.step st x = st

section
variable {st : State S α σ}

theorem stuck_ask (h : Stuck n st) {s : S} {d : Stream} (hr : n.reads st s d = true) (hs : n.isStream s d = true) :
    st.asked s d.reader d.writer = true := by
  cases ha : st.asked s d.reader d.writer with
  | true => rfl
  | false =>
    have := h (.ask s d) hs
    unfold step at this
    simp only [hr, ha, Bool.not_false, Bool.and_true, if_true] at this
    have := congrArg (fun x => x.asked s d.reader d.writer) this
    simp [setConn, ha] at this

theorem stuck_take (h : Stuck n st) {s : S} {d : Stream} (hr : n.reads st s d = true) (hs : n.isStream s d = true) : st.queue s d = [] := by
  cases hq : st.queue s d with
  | nil => rfl
  | cons a rest =>
    have := h (.take s d) hs
    unfold step at this
    simp only [hr, hq, if_true] at this
    have := congrArg (fun x => x.queue s d) this
    simp [receive, hq] at this

theorem stuck_eof (h : Stuck n st) {s : S} {d : Stream} (hr : n.reads st s d = true) (hs : n.isStream s d = true) :
    n.ended st s d = false := by
  cases he : n.ended st s d with
  | false => rfl
  | true =>
    have h2 := h (.eof s d) hs
    unfold step at h2
    simp only [hr, he, Bool.and_true, if_true] at h2
    have h2 := congrArg (fun x => x.eof s d) h2
    simp only [receive, set_self] at h2
    unfold reads at hr
    simp [← h2] at hr

theorem stuck_drop (h : Stuck n st) {s : S} {d : Stream} (hs : n.isStream s d = true) (he : st.eof s d = false) :
    n.mayDrop st s d = false := by
  cases hm : n.mayDrop st s d with
  | false => rfl
  | true =>
    have h2 := h (.drop s d) hs
    unfold step at h2
    simp only [hs, he, hm, Bool.and_true, Bool.not_false, if_true] at h2
    have h2 := congrArg (fun x => x.eof s d) h2
    rw [dropped_eof, set_self, he] at h2
    cases h2

theorem stuck_push (h : Stuck n st) {s : S} {d : Stream} (hs : n.isStream s d = true) (ha : st.asked s d.reader d.writer = true)
    (hroom : match n.link s d.reader d.writer with
      | .remote q _ _ => (st.fwd s d).length < q
      | .local => st.queue s d = []) : st.pend s d = [] := by
  cases hp : st.pend s d with
  | nil => rfl
  | cons a rest =>
    have h2 := h (.push s d) hs
    unfold step at h2
    cases hl : n.link s d.reader d.writer with
    | remote q w b =>
      rw [hl] at hroom
      dsimp only at hroom
      simp only [hs, ha, hp, hl, hroom, Bool.and_true, if_true] at h2
      have h2 := congrArg (fun x => x.pend s d) h2
      simp [hp] at h2
    | «local» =>
      rw [hl] at hroom
      dsimp only at hroom
      simp only [hs, ha, hp, hl, hroom, Bool.and_true, if_true] at h2
      have h2 := congrArg (fun x => x.pend s d) h2
      simp [hp] at h2

theorem stuck_close (h : Stuck n st) {s : S} {d : Stream} (hs : n.isStream s d = true) (ha : st.asked s d.reader d.writer = true)
    (hp : st.pend s d = []) (hm : n.mayClose st s d = true) : st.done s d = true := by
  cases hd : st.done s d with
  | true => rfl
  | false =>
    have h2 := h (.close s d) hs
    unfold step at h2
    simp only [hs, ha, hp, hd, hm, Bool.and_true, Bool.not_false, List.isEmpty_nil, if_true] at h2
    have h2 := congrArg (fun x => x.done s d) h2
    simp [hd] at h2

theorem stuck_send (h : Stuck n st) {s : S} {d : Stream} (hs : n.isStream s d = true) {q w b : Nat}
    (hl : n.link s d.reader d.writer = .remote q w b) (hroom : (st.wire s d.reader d.writer).length < w) : st.fwd s d = [] := by
  cases hp : st.fwd s d with
  | nil => rfl
  | cons a rest =>
    have h2 := h (.send s d) hs
    unfold step at h2
    simp only [hs, hp, hl, hroom, if_true] at h2
    have h2 := congrArg (fun x => x.fwd s d) h2
    simp [hp] at h2

theorem stuck_carry (h : Stuck n st) {s : S} {d : Stream} (hs : n.isStream s d = true) {q w b : Nat}
    (hl : n.link s d.reader d.writer = .remote q w b) (hroom : n.reserved st s d.reader d.writer < b) :
    st.wire s d.reader d.writer = [] := by
  cases hp : st.wire s d.reader d.writer with
  | nil => rfl
  | cons a rest =>
    have h2 := h (.carry s d.reader d.writer) ⟨d, hs, rfl, rfl⟩
    unfold step at h2
    simp only [hp, hl, hroom, if_true] at h2
    split at h2
    all_goals
      have h2 := congrArg (fun x => x.wire s d.reader d.writer) h2
      simp [setConn, hp] at h2

omit [DecidableEq S] in
theorem reserved_leak {s : S} {r w : Nat} (h : ∀ d ∈ n.conn s r w, st.queue s d = []) : n.reserved st s r w = st.leak s r w := by
  unfold reserved
  have : ∀ (l : List Stream), (∀ d ∈ l, st.queue s d = []) → (l.map fun d => ((st.queue s d).map n.size).sum).sum = 0 := by
    intro l
    induction l with
    | nil => intro _; rfl
    | cons x l ih =>
      intro hl
      simp [hl x (by simp), ih (fun d hd => hl d (List.mem_cons_of_mem _ hd))]
  rw [this _ h]
  rfl

/-- Everything the tasks of a stage still have to send was asked for and can be sent. -/
def Demanded (n : Net S α σ) (st : State S α σ) (s : S) : Prop :=
  ∀ d ∈ n.streams s, st.done s d = false → st.asked s d.reader d.writer = true
    ∧ match n.link s d.reader d.writer with
      | .remote q _ _ => (st.fwd s d).length < q
      | .local => st.queue s d = []

omit [DecidableEq S] in
/-- Among the stages that satisfy `p` there is one of least rank. -/
theorem exists_min {p : S → Prop} (rank : S → Nat) (h : ∃ s, p s) : ∃ s, p s ∧ ∀ s', p s' → rank s ≤ rank s' := by
  obtain ⟨s, hs⟩ := h
  have : ∀ (k : Nat) (s : S), rank s ≤ k → p s → ∃ s, p s ∧ ∀ s', p s' → rank s ≤ rank s' := by
    intro k
    induction k with
    | zero => intro s hk hs; exact ⟨s, hs, fun s' _ => by omega⟩
    | succ k ih =>
      intro s hk hs
      by_cases hex : ∃ s', p s' ∧ rank s' ≤ k
      · obtain ⟨s', h1, h2⟩ := hex
        exact ih s' h2 h1
      · exact ⟨s, hs, fun s' hs' => by
          by_cases hlt : rank s' ≤ k
          · exact absurd ⟨s', hs', hlt⟩ hex
          · omega⟩
  exact this _ s (Nat.le_refl _) hs

/-- If nothing can happen and the tasks of `s` can send, then all inputs of `s` have been read to the end or dropped, provided that the
stages below have sent everything that was asked for. -/
theorem inputs_ended (hok : n.Ok) {rank : S → Nat} (hord : n.Orderly rank) {busy : State S α σ → S → Nat → Prop} (hstop : n.Stops busy) (hreach : n.Reached st)
    (hst : Stuck n st) {s : S} (hs : s ∈ n.stages) (hdem : Demanded n st s)
    (ih : ∀ s', s' ∈ n.stages → s' ≠ n.root → n.parent s' = s → Demanded n st s' → ∀ d ∈ n.streams s', st.done s' d = true) :
    ∀ s' d, n.isStream s' d = true → n.parent s' = s → st.eof s' d = true := by
  have inv := inv_reached hreach
  -- everything the tasks of `s` computed was sent
  have hpend : ∀ d ∈ n.streams s, st.pend s d = [] := by
    intro d hd
    have hroot : s ≠ n.root := by
      rintro rfl
      rw [hok.head] at hd; cases hd
    cases hdone : st.done s d with
    | true => exact inv.done s d hdone
    | false =>
      obtain ⟨h1, h2⟩ := hdem d hd hdone
      exact stuck_push hst (isStream_iff.mpr ⟨hs, hroot, hd⟩) h1 h2
  have hun : ∀ t, n.Unhindered st s t := by
    intro t d hd hw
    cases hdone : st.done s d with
    | true => exact Or.inl rfl
    | false => subst hw; exact Or.inr ⟨(hdem d hd hdone).1, hpend d hd⟩
  refine Classical.byContradiction fun hne => ?_
  have hex : ∃ s', (n.parent s' = s ∧ ∃ d, n.isStream s' d = true ∧ st.eof s' d = false) := by
    refine Classical.byContradiction fun hno => ?_
    apply hne
    intro s' d h1 h2
    cases he : st.eof s' d with
    | true => rfl
    | false => exact absurd ⟨s', h2, d, h1, he⟩ hno
  obtain ⟨s', ⟨hp, d0, hd0, he0⟩, hmin⟩ := exists_min rank hex
  obtain ⟨hs'1, hs'2, hd0m⟩ := isStream_iff.mp hd0
  -- the readers of the streams of `s'` that have not ended are busy
  have hbusy : ∀ d, n.isStream s' d = true → st.eof s' d = false → busy st (n.parent s') d.reader := by
    intro d hd he
    refine Classical.byContradiction fun hno => ?_
    have := hstop.drops st hreach s' d hd he hno
    rw [stuck_drop hst hd he] at this
    cases this
  -- so these streams are read
  have hreads : ∀ d, n.isStream s' d = true → st.eof s' d = false → n.reads st s' d = true := by
    intro d hd he
    have hact : n.active st (n.parent s') d.reader = true := by
      rw [hp]
      unfold active
      rcases hstop.works st hreach _ _ (hbusy d hd he) with hroot | ⟨d', hd', hw, hdone⟩
      · simp [← hp, hroot]
      · rw [hp] at hd' hdone
        rw [Bool.or_eq_true]
        right
        rw [List.any_eq_true]
        refine ⟨d', hd', ?_⟩
        simp only [Bool.and_eq_true, decide_eq_true_eq]
        refine ⟨hw, ?_⟩
        have := (hdem d' hd' hdone).1
        rw [hw] at this
        exact this
    have hw : n.wants st s' d = true := by
      refine hord st hreach s' d hd he ?_ ?_
      · rw [hp]; exact hun _
      · intro s'' d'' h1 h2 h3 h4
        cases he' : st.eof s'' d'' with
        | true => rfl
        | false =>
          have := hmin s'' ⟨by rw [h2, hp], d'', h1, he'⟩
          omega
    unfold reads
    simp [hd, he, hact, hw]
  have hqueue : ∀ d ∈ n.streams s', st.queue s' d = [] := by
    intro d hd
    have hd' := isStream_iff.mpr ⟨hs'1, hs'2, hd⟩
    cases he : st.eof s' d with
    | true => exact inv.queue s' d he
    | false => exact stuck_take hst (hreads d hd' he) hd'
  -- a connection is over, or one of its streams is still read
  have hopen : ∀ d ∈ n.streams s', Over n st s' d ∨ ∃ d1 ∈ n.conn s' d.reader d.writer, st.eof s' d1 = false := by
    intro d hd
    by_cases hex : ∃ d1 ∈ n.conn s' d.reader d.writer, st.eof s' d1 = false
    · exact Or.inr hex
    · left
      have hall : ∀ d' ∈ n.conn s' d.reader d.writer, st.eof s' d' = true := by
        intro d' hd'
        cases he : st.eof s' d' with
        | true => rfl
        | false => exact absurd ⟨d', hd', he⟩ hex
      exact inv.eof s' d (hall d (mem_conn.mpr ⟨hd, rfl, rfl⟩)) (Or.inr (Or.inr hall))
  have hwire : ∀ d ∈ n.streams s', ∀ q w b, n.link s' d.reader d.writer = .remote q w b →
      st.wire s' d.reader d.writer = [] ∧ st.fwd s' d = [] := by
    intro d hd q w b hl
    have hd' := isStream_iff.mpr ⟨hs'1, hs'2, hd⟩
    obtain ⟨_, hw, _⟩ := hok.room _ _ _ _ _ _ hl
    rcases hopen d hd with ho | ⟨d1, hd1, he1⟩
    · rw [over_remote hl] at ho
      exact ⟨ho.1, (ho.2 d (mem_conn.mpr ⟨hd, rfl, rfl⟩)).2⟩
    · obtain ⟨h1, h2, h3⟩ := mem_conn.mp hd1
      have hlt := hstop.spare st hreach s' d1 (isStream_iff.mpr ⟨hs'1, hs'2, h1⟩) (hbusy d1 (isStream_iff.mpr ⟨hs'1, hs'2, h1⟩) he1) q w b
        (by rw [h2, h3]; exact hl)
      rw [h2, h3] at hlt
      have hres : n.reserved st s' d.reader d.writer = st.leak s' d.reader d.writer :=
        reserved_leak fun d' hd' => hqueue d' (mem_conn.mp hd').1
      have hwire := stuck_carry hst hd' hl (by rw [hres]; exact hlt)
      exact ⟨hwire, stuck_send hst hd' hl (by rw [hwire]; exact hw)⟩
  have hdem' : Demanded n st s' := by
    intro d hd hdone
    have hd' := isStream_iff.mpr ⟨hs'1, hs'2, hd⟩
    constructor
    · rcases hopen d hd with ho | ⟨d1, hd1, he1⟩
      · rw [over_done hd ho] at hdone; cases hdone
      · obtain ⟨h1, h2, h3⟩ := mem_conn.mp hd1
        have hs1 := isStream_iff.mpr ⟨hs'1, hs'2, h1⟩
        have := stuck_ask hst (hreads d1 hs1 he1) hs1
        rw [h2, h3] at this
        exact this
    · cases hl : n.link s' d.reader d.writer with
      | «local» => exact hqueue d hd
      | remote q w b =>
        dsimp only
        rw [(hwire d hd q w b hl).2]
        exact (hok.room _ _ _ _ _ _ hl).1
  have hall := ih s' hs'1 hs'2 hp hdem'
  have hend := stuck_eof hst (hreads d0 hd0 he0) hd0
  have : n.ended st s' d0 = true := by
    refine ended_iff.mpr ⟨hqueue d0 hd0m, ?_⟩
    cases hl : n.link s' d0.reader d0.writer with
    | «local» => exact (over_local hl).mpr (hall d0 hd0m)
    | remote q w b =>
      refine (over_remote hl).mpr ⟨(hwire d0 hd0m q w b hl).1, fun d' hd' => ?_⟩
      obtain ⟨h1, h2, h3⟩ := mem_conn.mp hd'
      exact ⟨hall d' h1, (hwire d' h1 q w b (by rw [h2, h3]; exact hl)).2⟩
  rw [this] at hend; cases hend

/-- If nothing can happen and the tasks of `s` can send, then they have sent everything. -/
theorem all_done (hok : n.Ok) {rank : S → Nat} (hord : n.Orderly rank) (hpr : n.Prompt) {busy : State S α σ → S → Nat → Prop} (hstop : n.Stops busy) (hreach : n.Reached st)
    (hst : Stuck n st) {D : Nat} (hD : ∀ s ∈ n.stages, n.depth s ≤ D) :
    ∀ (k : Nat) (s : S), D - n.depth s ≤ k → s ∈ n.stages → s ≠ n.root → Demanded n st s → ∀ d ∈ n.streams s, st.done s d = true := by
  intro k
  induction k with
  | zero =>
    intro s hk hs hroot hdem d hd
    have hin := inputs_ended hok hord hstop hreach hst hs hdem (by
      intro s' h1 h2 h3 _
      exfalso
      have := hok.depth s' h1 h2
      have := hD s' h1
      rw [h3] at *
      omega)
    cases hdone : st.done s d with
    | true => rfl
    | false =>
      obtain ⟨h1, h2⟩ := hdem d hd hdone
      have hs' := isStream_iff.mpr ⟨hs, hroot, hd⟩
      have hp := stuck_push hst hs' h1 h2
      have := stuck_close hst hs' h1 hp (hpr st hreach s d hs' hdone hp fun s' d' h1 h2 _ => hin s' d' h1 h2)
      rw [this] at hdone; cases hdone
  | succ k ih =>
    intro s hk hs hroot hdem d hd
    have hin := inputs_ended hok hord hstop hreach hst hs hdem (by
      intro s' h1 h2 h3 h4
      refine ih s' ?_ h1 h2 h4
      have := hok.depth s' h1 h2
      have := hD s' h1
      rw [h3] at *
      omega)
    cases hdone : st.done s d with
    | true => rfl
    | false =>
      obtain ⟨h1, h2⟩ := hdem d hd hdone
      have hs' := isStream_iff.mpr ⟨hs, hroot, hd⟩
      have hp := stuck_push hst hs' h1 h2
      have := stuck_close hst hs' h1 hp (hpr st hreach s d hs' hdone hp fun s' d' h1 h2 _ => hin s' d' h1 h2)
      rw [this] at hdone; cases hdone

omit [DecidableEq S] in
theorem depth_bound (n : Net S α σ) : ∃ D, ∀ s ∈ n.stages, n.depth s ≤ D := by
  have : ∀ l : List S, ∃ D, ∀ s ∈ l, n.depth s ≤ D := by
    intro l
    induction l with
    | nil => exact ⟨0, fun _ h => (nomatch h)⟩
    | cons x l ih =>
      obtain ⟨D, hD⟩ := ih
      refine ⟨max (n.depth x) D, fun s hs => ?_⟩
      rcases List.mem_cons.mp hs with rfl | hs
      · exact Nat.le_max_left _ _
      · exact Nat.le_trans (hD s hs) (Nat.le_max_right _ _)
  exact this _

/-- The head stage can always go on reading: if nothing can happen, it has read everything. -/
theorem finished_of_stuck (hok : n.Ok) (hroot : n.root ∈ n.stages) {rank : S → Nat} (hord : n.Orderly rank) (hpr : n.Prompt)
    {busy : State S α σ → S → Nat → Prop} (hstop : n.Stops busy) (hreach : n.Reached st) (hst : Stuck n st) : n.Finished st := by
  obtain ⟨D, hD⟩ := depth_bound n
  intro s d hd hp
  refine inputs_ended hok hord hstop hreach hst hroot ?_ ?_ s d hd hp
  · intro d hd
    rw [hok.head] at hd; cases hd
  · intro s' h1 h2 _ h4
    exact all_done hok hord hpr hstop hreach hst hD _ s' (Nat.le_refl _) h1 h2 h4

end

end Net

end DD.Net
