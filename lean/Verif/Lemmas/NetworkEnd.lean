/-
Lemmas for C77: only finitely many things happen in a query.
-/
import Verif.Lemmas.Network

namespace DD.Net

variable {S α σ : Type} [DecidableEq S]

/-! ### Sequences that go down -/

/-- `m'` is below `m` in the order that looks at the last components first. -/
def Less (m' m : Nat → Nat) : Prop := ∃ i, m' i < m i ∧ ∀ j, i < j → m' j = m j

/-- A sequence of numbers that never goes up stays the same from some point on. -/
theorem settles (f : Nat → Nat) (h : ∀ t, f (t + 1) ≤ f t) : ∃ T, ∀ t, T ≤ t → f t = f T := by
  have hmono : ∀ a k, f (a + k) ≤ f a := by
    intro a k
    induction k with
    | zero => exact Nat.le_refl _
    | succ k ih => exact Nat.le_trans (h (a + k)) ih
  have : ∀ (v T : Nat), f T ≤ v → ∃ T, ∀ t, T ≤ t → f t = f T := by
    intro v
    induction v with
    | zero =>
      intro T hT
      refine ⟨T, fun t ht => ?_⟩
      obtain ⟨k, rfl⟩ := Nat.exists_eq_add_of_le ht
      have := hmono T k
      omega
    | succ v ih =>
      intro T hT
      by_cases hex : ∃ t, T ≤ t ∧ f t ≤ v
      · obtain ⟨t, _, ht⟩ := hex
        exact ih t ht
      · refine ⟨T, fun t ht => ?_⟩
        have h1 : ¬ f t ≤ v := fun h => hex ⟨t, ht, h⟩
        obtain ⟨k, rfl⟩ := Nat.exists_eq_add_of_le ht
        have := hmono T k
        omega
  exact this _ 0 (Nat.le_refl _)

/-- A sequence of families with finitely many components that goes down or stays the same, stays the same from some point on. -/
theorem settles_lex (f : Nat → Nat → Nat) (hdec : ∀ t, f (t + 1) = f t ∨ Less (f (t + 1)) (f t)) :
    ∀ (K T0 : Nat), (∀ t, T0 ≤ t → ∀ j, K ≤ j → f (t + 1) j = f t j) → ∃ T, ∀ t, T ≤ t → f (t + 1) = f t := by
  intro K
  induction K with
  | zero =>
    intro T0 h
    exact ⟨T0, fun t ht => funext fun j => h t ht j (Nat.zero_le _)⟩
  | succ K ih =>
    intro T0 h
    have hle : ∀ t, T0 ≤ t → f (t + 1) K ≤ f t K := by
      intro t ht
      rcases hdec t with he | ⟨i, hi, hij⟩
      · rw [he]; exact Nat.le_refl _
      · rcases Nat.lt_trichotomy i K with hlt | rfl | hgt
        · rw [hij K hlt]; exact Nat.le_refl _
        · exact Nat.le_of_lt hi
        · have := h t ht i hgt
          omega
    obtain ⟨T, hT⟩ := settles (fun t => f (T0 + t) K) fun t => hle (T0 + t) (Nat.le_add_right _ _)
    refine ih (T0 + T) fun t ht j hj => ?_
    rcases Nat.eq_or_lt_of_le hj with rfl | hlt
    · have h1 := hT (t - T0) (by omega)
      have h2 := hT (t + 1 - T0) (by omega)
      rw [show T0 + (t - T0) = t by omega] at h1
      rw [show T0 + (t + 1 - T0) = t + 1 by omega] at h2
      rw [h1, h2]
    · exact h t (by omega) j hlt

theorem less_irrefl {m : Nat → Nat} : ¬ Less m m := fun ⟨_, h, _⟩ => Nat.lt_irrefl _ h

/-! ### Sums over streams -/

theorem sum_map_le {β : Type} (f g : β → Nat) : ∀ l : List β, (∀ x ∈ l, f x ≤ g x) → (l.map f).sum ≤ (l.map g).sum
  | [], _ => Nat.le_refl _
  | x :: l, h => by
    simp only [List.map_cons, List.sum_cons]
    exact Nat.add_le_add (h x (by simp)) (sum_map_le f g l fun y hy => h y (List.mem_cons_of_mem _ hy))

theorem sum_map_lt {β : Type} (f g : β → Nat) : ∀ l : List β, (∀ x ∈ l, f x ≤ g x) → ∀ y ∈ l, f y < g y → (l.map f).sum < (l.map g).sum
  | [], _, _, hy, _ => nomatch hy
  | x :: l, h, y, hy, hlt => by
    simp only [List.map_cons, List.sum_cons]
    have h1 := h x (by simp)
    have h2 := sum_map_le f g l fun y hy => h y (List.mem_cons_of_mem _ hy)
    rcases List.mem_cons.mp hy with rfl | hy
    · omega
    · have := sum_map_lt f g l (fun y hy => h y (List.mem_cons_of_mem _ hy)) y hy hlt
      omega

namespace Net
variable {n : Net S α σ}

/-- The sum of `f` over the streams of all stages at a depth. -/
def sumAt (n : Net S α σ) (k : Nat) (f : S → Stream → Nat) : Nat :=
  ((n.stages.filter fun s => decide (n.depth s = k) && decide (s ≠ n.root)).map fun s => ((n.streams s).map (f s)).sum).sum

theorem sumAt_le {k : Nat} {f g : S → Stream → Nat} (h : ∀ s d, n.isStream s d = true → n.depth s = k → f s d ≤ g s d) :
    n.sumAt k f ≤ n.sumAt k g := by
  refine sum_map_le _ _ _ fun s hs => sum_map_le _ _ _ fun d hd => ?_
  rw [List.mem_filter, Bool.and_eq_true, decide_eq_true_eq, decide_eq_true_eq] at hs
  exact h s d (isStream_iff.mpr ⟨hs.1, hs.2.2, hd⟩) hs.2.1

theorem sumAt_congr {k : Nat} {f g : S → Stream → Nat} (h : ∀ s d, n.isStream s d = true → n.depth s = k → f s d = g s d) :
    n.sumAt k f = n.sumAt k g :=
  Nat.le_antisymm (sumAt_le fun s d h1 h2 => Nat.le_of_eq (h s d h1 h2)) (sumAt_le fun s d h1 h2 => Nat.le_of_eq (h s d h1 h2).symm)

theorem sumAt_lt {f g : S → Stream → Nat} {s : S} {d : Stream} (hs : n.isStream s d = true)
    (h : ∀ s' d', n.isStream s' d' = true → n.depth s' = n.depth s → f s' d' ≤ g s' d') (hlt : f s d < g s d) :
    n.sumAt (n.depth s) f < n.sumAt (n.depth s) g := by
  obtain ⟨h1, h2, h3⟩ := isStream_iff.mp hs
  refine sum_map_lt _ _ _ (fun s' hs' => sum_map_le _ _ _ fun d' hd' => ?_) s ?_ (sum_map_lt _ _ _ (fun d' hd' => ?_) d h3 hlt)
  · rw [List.mem_filter, Bool.and_eq_true, decide_eq_true_eq, decide_eq_true_eq] at hs'
    exact h s' d' (isStream_iff.mpr ⟨hs'.1, hs'.2.2, hd'⟩) hs'.2.1
  · rw [List.mem_filter]
    exact ⟨h1, by simp [h2]⟩
  · exact h s d' (isStream_iff.mpr ⟨h1, h2, hd'⟩) rfl

/-! ### What is left to do -/

/-- What is left to do for one stream, apart from what its writer still has to send. -/
def phi (st : State S α σ) (s : S) (d : Stream) : Nat :=
  3 * (st.fwd s d).length + 2 * (st.wire s d.reader d.writer).countP (fun x => decide (x.1 = d)) + (st.queue s d).length
    + (!st.eof s d).toNat + (!st.asked s d.reader d.writer).toNat + (!st.done s d).toNat
    + 2 * (!st.failed s d.reader d.writer).toNat

/-- What is left to do, by depth: first what the writers have to send, then the rest. -/
def measure (n : Net S α σ) (st : State S α σ) (i : Nat) : Nat :=
  if i % 2 = 1 then n.sumAt (i / 2) fun s d => (st.pend s d).length else n.sumAt (i / 2) (phi st)

theorem measure_pend (st : State S α σ) (k : Nat) : n.measure st (2 * k + 1) = n.sumAt k fun s d => (st.pend s d).length := by
  unfold measure
  rw [if_pos (by omega), show (2 * k + 1) / 2 = k by omega]

theorem measure_phi (st : State S α σ) (k : Nat) : n.measure st (2 * k) = n.sumAt k (phi st) := by
  unfold measure
  rw [if_neg (by omega), show 2 * k / 2 = k by omega]

theorem less_phi {st st' : State S α σ} {s : S} {d : Stream} (hs : n.isStream s d = true)
    (hle : ∀ s' d', n.isStream s' d' = true → phi st' s' d' ≤ phi st s' d') (hlt : phi st' s d < phi st s d)
    (hother : ∀ s' d', s' ≠ s → phi st' s' d' = phi st s' d')
    (hpend : ∀ s' d', n.depth s ≤ n.depth s' → st'.pend s' d' = st.pend s' d') : Less (n.measure st') (n.measure st) := by
  refine ⟨2 * n.depth s, ?_, fun j hj => ?_⟩
  · rw [measure_phi, measure_phi]
    exact sumAt_lt hs (fun s' d' h _ => hle s' d' h) hlt
  · rcases Nat.mod_two_eq_zero_or_one j with h0 | h1
    · obtain ⟨k, rfl⟩ : ∃ k, j = 2 * k := ⟨j / 2, by omega⟩
      rw [measure_phi, measure_phi]
      refine sumAt_congr fun s' d' _ hk => hother s' d' ?_
      rintro rfl
      omega
    · obtain ⟨k, rfl⟩ : ∃ k, j = 2 * k + 1 := ⟨j / 2, by omega⟩
      rw [measure_pend, measure_pend]
      refine sumAt_congr fun s' d' _ hk => ?_
      rw [hpend s' d' (by omega)]

theorem less_pend {st st' : State S α σ} {s : S} {d : Stream} (hs : n.isStream s d = true)
    (hlt : (st'.pend s d).length < (st.pend s d).length)
    (hpend : ∀ s' d', ¬(s' = s ∧ d' = d) → st'.pend s' d' = st.pend s' d')
    (hother : ∀ s' d', s' ≠ s → phi st' s' d' = phi st s' d') : Less (n.measure st') (n.measure st) := by
  refine ⟨2 * n.depth s + 1, ?_, fun j hj => ?_⟩
  · rw [measure_pend, measure_pend]
    refine sumAt_lt hs (fun s' d' h _ => ?_) hlt
    by_cases e : s' = s ∧ d' = d
    · rw [e.1, e.2]; exact Nat.le_of_lt hlt
    · rw [hpend s' d' e]; exact Nat.le_refl _
  · rcases Nat.mod_two_eq_zero_or_one j with h0 | h1
    · obtain ⟨k, rfl⟩ : ∃ k, j = 2 * k := ⟨j / 2, by omega⟩
      rw [measure_phi, measure_phi]
      refine sumAt_congr fun s' d' _ hk => hother s' d' ?_
      rintro rfl
      omega
    · obtain ⟨k, rfl⟩ : ∃ k, j = 2 * k + 1 := ⟨j / 2, by omega⟩
      rw [measure_pend, measure_pend]
      refine sumAt_congr fun s' d' _ hk => ?_
      rw [hpend s' d' (by rintro ⟨rfl, rfl⟩; omega)]

/-- A step in which everything about the streams of one stage gets less. -/
theorem less_stage {st st' : State S α σ} {s : S} {d : Stream} (hs : n.isStream s d = true)
    (hpend : ∀ s' d', (st'.pend s' d').length ≤ (st.pend s' d').length) (hphi : ∀ s' d', phi st' s' d' ≤ phi st s' d')
    (hlt : phi st' s d < phi st s d)
    (hother : ∀ s' d', s' ≠ s → st'.pend s' d' = st.pend s' d' ∧ phi st' s' d' = phi st s' d') : Less (n.measure st') (n.measure st) := by
  have habove : ∀ j, 2 * n.depth s + 1 < j → n.measure st' j = n.measure st j := by
    intro j hj
    rcases Nat.mod_two_eq_zero_or_one j with h0 | h1
    · obtain ⟨k, rfl⟩ : ∃ k, j = 2 * k := ⟨j / 2, by omega⟩
      rw [measure_phi, measure_phi]
      refine sumAt_congr fun s' d' _ hk => (hother s' d' ?_).2
      rintro rfl
      omega
    · obtain ⟨k, rfl⟩ : ∃ k, j = 2 * k + 1 := ⟨j / 2, by omega⟩
      rw [measure_pend, measure_pend]
      refine sumAt_congr fun s' d' _ hk => ?_
      rw [(hother s' d' (by rintro rfl; omega)).1]
  have hle : n.measure st' (2 * n.depth s + 1) ≤ n.measure st (2 * n.depth s + 1) := by
    rw [measure_pend, measure_pend]
    exact sumAt_le fun s' d' _ _ => hpend s' d'
  rcases Nat.lt_or_eq_of_le hle with h | h
  · exact ⟨_, h, habove⟩
  · refine ⟨2 * n.depth s, ?_, fun j hj => ?_⟩
    · rw [measure_phi, measure_phi]
      exact sumAt_lt hs (fun s' d' _ _ => hphi s' d') hlt
    · rcases Nat.eq_or_lt_of_le hj with h' | h'
      · rw [← h']; exact h
      · exact habove j h'

theorem drop_less {st : State S α σ} {s : S} {d : Stream} (hs : n.isStream s d = true) (he : st.eof s d = false) :
    Less (n.measure (n.dropped st s d)) (n.measure st) := by
  have hset : ∀ {β : Type} (f : S → Stream → List β) (s' : S) (d' : Stream), (set f s d [] s' d').length ≤ (f s' d').length := by
    intro β f s' d'
    rw [set_eq]
    split
    · exact Nat.zero_le _
    · exact Nat.le_refl _
  have htrue : ∀ (f : S → Stream → Bool) (s' : S) (d' : Stream), (!set f s d true s' d').toNat ≤ (!f s' d').toNat := by
    intro f s' d'
    rw [set_eq]
    split
    · exact Nat.zero_le _
    · exact Nat.le_refl _
  have hlen : ∀ {β : Type} (f : S → Stream → List β) (s' : S) (d' : Stream),
      (if s' = s ∧ d'.reader = d.reader ∧ d'.writer = d.writer then [] else f s' d').length ≤ (f s' d').length := by
    intro β f s' d'
    split
    · exact Nat.zero_le _
    · exact Nat.le_refl _
  have hdone : ∀ (f : S → Stream → Bool) (s' : S) (d' : Stream),
      (!if s' = s ∧ d'.reader = d.reader ∧ d'.writer = d.writer then true else f s' d').toNat ≤ (!f s' d').toNat := by
    intro f s' d'
    split
    · exact Nat.zero_le _
    · exact Nat.le_refl _
  have hwire : ∀ (s' : S) (d' : Stream), (setConn st.wire s d.reader d.writer [] s' d'.reader d'.writer).countP (fun x => decide (x.1 = d'))
      ≤ (st.wire s' d'.reader d'.writer).countP (fun x => decide (x.1 = d')) := by
    intro s' d'
    rw [setConn_eq]
    split
    · exact Nat.zero_le _
    · exact Nat.le_refl _
  have hstrict : (!set st.eof s d true s d).toNat < (!st.eof s d).toNat := by rw [set_self, he]; decide
  unfold dropped
  split
  · refine less_stage hs (fun s' d' => hset st.pend s' d') (fun s' d' => ?_) ?_ (fun s' d' hne => ?_)
    · have h1 := hset st.queue s' d'
      have h2 := htrue st.eof s' d'
      have h3 := htrue st.done s' d'
      unfold phi
      dsimp only
      omega
    · have h1 := hset st.queue s d
      have h3 := htrue st.done s d
      unfold phi
      dsimp only
      omega
    · have hne' : ¬ (s' = s ∧ d' = d) := fun e => hne e.1
      unfold phi
      dsimp only
      simp only [set_ne _ _ hne', and_self]
  · dsimp only
    split
    · refine less_stage hs (fun s' d' => hlen st.pend s' d') (fun s' d' => ?_) ?_ (fun s' d' hne => ?_)
      · have h1 := hset st.queue s' d'
        have h2 := htrue st.eof s' d'
        have h3 := hdone st.done s' d'
        have h4 := hlen st.fwd s' d'
        have h5 := hwire s' d'
        unfold phi cancel
        dsimp only
        omega
      · have h1 := hset st.queue s d
        have h3 := hdone st.done s d
        have h4 := hlen st.fwd s d
        have h5 := hwire s d
        unfold phi cancel
        dsimp only
        omega
      · have hne' : ¬ (s' = s ∧ d' = d) := fun e => hne e.1
        have hne2 : ¬ (s' = s ∧ d'.reader = d.reader ∧ d'.writer = d.writer) := fun e => hne e.1
        unfold phi cancel
        dsimp only
        simp only [set_ne _ _ hne', setConn_eq, if_neg hne2, and_self]
    · refine less_stage hs (fun s' d' => Nat.le_refl _) (fun s' d' => ?_) ?_ (fun s' d' hne => ?_)
      · have h1 := hset st.queue s' d'
        have h2 := htrue st.eof s' d'
        unfold phi
        dsimp only
        omega
      · have h1 := hset st.queue s d
        unfold phi
        dsimp only
        omega
      · have hne' : ¬ (s' = s ∧ d' = d) := fun e => hne e.1
        unfold phi
        dsimp only
        simp only [set_ne _ _ hne', and_self]

theorem fail_less {st : State S α σ} {s : S} {r w : Nat} (hf : n.mayFail st s r w = true) :
    Less (n.measure (n.broken st s r w)) (n.measure st) := by
  obtain ⟨_, _, hfail, ⟨d, hd, hs, _⟩, _⟩ := mayFail_iff.mp hf
  have hc := mem_conn.mp hd
  have hlen : ∀ {β : Type} (f : S → Stream → List β) (s' : S) (d' : Stream),
      (if s' = s ∧ d'.reader = r ∧ d'.writer = w then [] else f s' d').length ≤ (f s' d').length := by
    intro β f s' d'
    split
    · exact Nat.zero_le _
    · exact Nat.le_refl _
  have hdone : ∀ (f : S → Stream → Bool) (s' : S) (d' : Stream),
      (!if s' = s ∧ d'.reader = r ∧ d'.writer = w then true else f s' d').toNat ≤ (!f s' d').toNat := by
    intro f s' d'
    split
    · exact Nat.zero_le _
    · exact Nat.le_refl _
  have hwire : ∀ (s' : S) (d' : Stream), (setConn st.wire s r w [] s' d'.reader d'.writer).countP (fun x => decide (x.1 = d'))
      ≤ (st.wire s' d'.reader d'.writer).countP (fun x => decide (x.1 = d')) := by
    intro s' d'
    rw [setConn_eq]
    split
    · exact Nat.zero_le _
    · exact Nat.le_refl _
  have hqueue : ∀ (s' : S) (d' : Stream),
      (if s' = s ∧ d' ∈ n.conn s r w ∧ st.gone s d' = false then st.queue s' d' ++ [n.error s r w] else st.queue s' d').length
        + 2 * (!setConn st.failed s r w true s' d'.reader d'.writer).toNat
        + (if s' = s ∧ d'.reader = r ∧ d'.writer = w then 1 else 0)
        ≤ (st.queue s' d').length + 2 * (!st.failed s' d'.reader d'.writer).toNat := by
    intro s' d'
    rw [setConn_eq]
    by_cases e : s' = s ∧ d'.reader = r ∧ d'.writer = w
    · rw [if_pos e, if_pos e, e.1, e.2.1, e.2.2, hfail]
      split
      · simp
      · simp
    · have e' : ¬ (s' = s ∧ d' ∈ n.conn s r w ∧ st.gone s d' = false) := fun h => e ⟨h.1, (mem_conn.mp h.2.1).2⟩
      rw [if_neg e, if_neg e, if_neg e']
      omega
  refine less_stage hs (fun s' d' => hlen st.pend s' d') (fun s' d' => ?_) ?_ (fun s' d' hne => ?_)
  · have h1 := hqueue s' d'
    have h3 := hdone st.done s' d'
    have h4 := hlen st.fwd s' d'
    have h5 := hwire s' d'
    unfold phi broken
    dsimp only
    omega
  · have h1 := hqueue s d
    rw [if_pos (c := s = s ∧ d.reader = r ∧ d.writer = w) ⟨rfl, hc.2⟩] at h1
    have h3 := hdone st.done s d
    have h4 := hlen st.fwd s d
    have h5 := hwire s d
    unfold phi broken
    dsimp only
    omega
  · have hne2 : ¬ (s' = s ∧ d'.reader = r ∧ d'.writer = w) := fun e => hne e.1
    have hne3 : ¬ (s' = s ∧ d' ∈ n.conn s r w ∧ st.gone s d' = false) := fun e => hne e.1
    unfold phi broken
    dsimp only
    simp only [setConn_eq, if_neg hne2, if_neg hne3, and_self]

theorem receive_phi (st : State S α σ) (s : S) (d : Stream) (x : Option α) (s' : S) (d' : Stream) :
    phi (n.receive st s d x) s' d' = phi st s' d' := rfl

theorem receive_pend_ne {st : State S α σ} {s s' : S} {d d' : Stream} {x : Option α} (h : s' ≠ n.parent s) :
    (n.receive st s d x).pend s' d' = st.pend s' d' := by
  unfold receive
  dsimp only
  rw [if_neg (fun e => h e.1)]

/-- Every step that changes something leaves less to do. -/
theorem step_less (hok : n.Ok) {st : State S α σ} (inv : Inv n st) (x : Step S) :
    n.step st x = st ∨ Less (n.measure (n.step st x)) (n.measure st) := by
  have hparent : ∀ {s : S} {d : Stream}, n.isStream s d = true → ∀ s', n.depth s ≤ n.depth s' → s' ≠ n.parent s := by
    rintro s d hs s' hle rfl
    have := hok.depth s (isStream_iff.mp hs).1 (isStream_iff.mp hs).2.1
    omega
  cases x with
  | ask s d =>
    unfold step; dsimp only
    split
    · rename_i hr
      right
      simp only [Bool.and_eq_true, Bool.not_eq_true', reads] at hr
      refine less_phi (st := st) (d := d) (s := s) hr.1.1.1.1 ?_ ?_ ?_ fun _ _ _ => rfl
      · intro s' d' _
        unfold phi
        dsimp only
        rw [setConn_eq]
        split
        · simp
        · exact Nat.le_refl _
      · unfold phi
        dsimp only
        rw [setConn_eq, if_pos ⟨rfl, rfl, rfl⟩, hr.2]
        simp
      · intro s' d' hne
        unfold phi
        dsimp only
        rw [setConn_eq, if_neg (fun e => hne e.1)]
    · exact Or.inl rfl
  | take s d =>
    unfold step; dsimp only
    split
    · rename_i hr
      split
      · rename_i a rest hq
        right
        simp only [Bool.and_eq_true, Bool.not_eq_true', reads] at hr
        have hs := hr.1.1.1
        refine less_phi (st := st) (d := d) (s := s) hs ?_ ?_ ?_ ?_
        · intro s' d' _
          rw [receive_phi]
          unfold phi
          dsimp only
          rw [set_eq]
          split
          · rename_i e
            rw [e.1, e.2, hq, List.length_cons]
            omega
          · exact Nat.le_refl _
        · rw [receive_phi]
          unfold phi
          dsimp only
          rw [set_self, hq, List.length_cons]
          omega
        · intro s' d' hne
          rw [receive_phi]
          unfold phi
          dsimp only
          rw [set_ne _ _ (fun e => hne e.1)]
        · intro s' d' hle
          rw [receive_pend_ne (hparent hs s' hle)]
      · exact Or.inl rfl
    · exact Or.inl rfl
  | eof s d =>
    unfold step; dsimp only
    split
    · rename_i hr
      right
      simp only [Bool.and_eq_true, Bool.not_eq_true', reads] at hr
      have hs := hr.1.1.1.1
      have he := hr.1.1.1.2
      refine less_phi (st := st) (d := d) (s := s) hs ?_ ?_ ?_ ?_
      · intro s' d' _
        rw [receive_phi]
        unfold phi
        dsimp only
        rw [set_eq]
        split
        · simp
        · exact Nat.le_refl _
      · rw [receive_phi]
        unfold phi
        dsimp only
        rw [set_self, he]
        simp
      · intro s' d' hne
        rw [receive_phi]
        unfold phi
        dsimp only
        rw [set_ne _ _ (fun e => hne e.1)]
      · intro s' d' hle
        rw [receive_pend_ne (hparent hs s' hle)]
    · exact Or.inl rfl
  | drop s d =>
    unfold step; dsimp only
    split
    · rename_i hr
      simp only [Bool.and_eq_true, Bool.not_eq_true'] at hr
      exact Or.inr (drop_less hr.1.1 hr.1.2)
    · exact Or.inl rfl
  | push s d =>
    unfold step; dsimp only
    split
    · rename_i hr
      rw [Bool.and_eq_true] at hr
      split
      · rename_i a rest q w b hp hl
        split
        · right
          refine less_pend (st := st) (d := d) (s := s) hr.1 ?_ ?_ ?_
          · dsimp only
            rw [set_self, hp, List.length_cons]
            omega
          · intro s' d' hne
            exact set_ne _ _ hne
          · intro s' d' hne
            unfold phi
            dsimp only
            rw [set_ne _ _ (fun e => hne e.1)]
        · exact Or.inl rfl
      · rename_i a rest hp hl
        split
        · right
          refine less_pend (st := st) (d := d) (s := s) hr.1 ?_ ?_ ?_
          · dsimp only
            rw [set_self, hp, List.length_cons]
            omega
          · intro s' d' hne
            exact set_ne _ _ hne
          · intro s' d' hne
            unfold phi
            dsimp only
            rw [set_ne _ _ (fun e => hne e.1)]
        · exact Or.inl rfl
      · exact Or.inl rfl
    · exact Or.inl rfl
  | close s d =>
    unfold step; dsimp only
    split
    · rename_i hr
      right
      simp only [Bool.and_eq_true, Bool.not_eq_true'] at hr
      refine less_phi (st := st) (d := d) (s := s) hr.1.1.1.1 ?_ ?_ ?_ fun _ _ _ => rfl
      · intro s' d' _
        unfold phi
        dsimp only
        rw [set_eq]
        split
        · simp
        · exact Nat.le_refl _
      · unfold phi
        dsimp only
        rw [set_self, hr.1.1.2]
        simp
      · intro s' d' hne
        unfold phi
        dsimp only
        rw [set_ne _ _ (fun e => hne e.1)]
    · exact Or.inl rfl
  | send s d =>
    unfold step; dsimp only
    split
    · rename_i hs
      split
      · rename_i a rest q w b hf hl
        split
        · right
          have key : ∀ s' d', phi { st with
              fwd := set st.fwd s d rest
              wire := setConn st.wire s d.reader d.writer (st.wire s d.reader d.writer ++ [(d, a)]) } s' d'
              + (if s' = s ∧ d' = d then 1 else 0) = phi st s' d' := by
            intro s' d'
            unfold phi
            dsimp only
            rw [set_eq, setConn_eq]
            by_cases e : s' = s ∧ d' = d
            · obtain ⟨rfl, rfl⟩ := e
              rw [if_pos ⟨rfl, rfl⟩, if_pos ⟨rfl, rfl, rfl⟩, if_pos ⟨rfl, rfl⟩, hf, List.length_cons, List.countP_append]
              simp only [List.countP_cons, List.countP_nil, decide_true, if_true]
              omega
            · rw [if_neg e, if_neg e]
              by_cases e2 : s' = s ∧ d'.reader = d.reader ∧ d'.writer = d.writer
              · rw [if_pos e2, e2.1, e2.2.1, e2.2.2, List.countP_append]
                have hne : ¬ d = d' := fun h => e ⟨e2.1, h.symm⟩
                simp [hne]
              · rw [if_neg e2]; omega
          refine less_phi (st := st) (d := d) (s := s) hs ?_ ?_ ?_ fun _ _ _ => rfl
          · intro s' d' _
            have := key s' d'
            omega
          · have := key s d
            rw [if_pos ⟨rfl, rfl⟩] at this
            omega
          · intro s' d' hne
            have := key s' d'
            rw [if_neg (fun e => hne e.1)] at this
            exact this
        · exact Or.inl rfl
      · exact Or.inl rfl
    · exact Or.inl rfl
  | carry s r w =>
    unfold step; dsimp only
    split
    · rename_i q w' budget d a rest hl hw
      split
      · right
        obtain ⟨hs, hr, hw'⟩ := inv.wire s r w (d, a) (by rw [hw]; simp)
        dsimp only at hs hr hw'
        subst hr hw'
        have key : ∀ (q' : List α), q'.length ≤ (st.queue s d).length + 1 → ∀ s' d', phi { st with
            wire := setConn st.wire s d.reader d.writer rest
            queue := set st.queue s d q' } s' d' + (if s' = s ∧ d' = d then 1 else 0) ≤ phi st s' d'
            ∧ (s' ≠ s → phi { st with
            wire := setConn st.wire s d.reader d.writer rest
            queue := set st.queue s d q' } s' d' = phi st s' d') := by
          intro q' hq' s' d'
          unfold phi
          dsimp only
          rw [set_eq, setConn_eq]
          by_cases e : s' = s ∧ d' = d
          · obtain ⟨rfl, rfl⟩ := e
            rw [if_pos ⟨rfl, rfl, rfl⟩, if_pos ⟨rfl, rfl⟩, if_pos ⟨rfl, rfl⟩, hw, List.countP_cons]
            simp only [decide_true, if_true]
            exact ⟨by omega, fun h => absurd rfl h⟩
          · rw [if_neg e, if_neg e]
            by_cases e2 : s' = s ∧ d'.reader = d.reader ∧ d'.writer = d.writer
            · rw [if_pos e2, e2.1, e2.2.1, e2.2.2, hw, List.countP_cons]
              exact ⟨by omega, fun h => absurd rfl h⟩
            · rw [if_neg e2]; exact ⟨by omega, fun _ => rfl⟩
        have fin : ∀ (q' : List α), q'.length ≤ (st.queue s d).length + 1 → Less (n.measure { st with
            wire := setConn st.wire s d.reader d.writer rest
            queue := set st.queue s d q' }) (n.measure st) := by
          intro q' hq'
          refine less_phi (st := st) (d := d) (s := s) hs ?_ ?_ ?_ fun _ _ _ => rfl
          · intro s' d' _
            have := (key q' hq' s' d').1
            omega
          · have := (key q' hq' s d).1
            rw [if_pos ⟨rfl, rfl⟩] at this
            omega
          · intro s' d' hne
            exact (key q' hq' s' d').2 hne
        split
        · have := fin (st.queue s d) (by omega)
          have hsame : set st.queue s d (st.queue s d) = st.queue := by
            funext s' d'
            rw [set_eq]
            split
            · rename_i e; rw [e.1, e.2]
            · rfl
          rw [hsame] at this
          exact this
        · exact fin _ (by simp)
      · exact Or.inl rfl
    · exact Or.inl rfl
  | fail s r w =>
    unfold step; dsimp only
    split
    · rename_i hf
      exact Or.inr (fail_less hf)
    · exact Or.inl rfl

theorem runFor_reached (n : Net S α σ) (sched : Nat → Step S) : ∀ t, n.Reached (n.runFor sched t)
  | 0 => ⟨[], rfl⟩
  | t + 1 => by
    obtain ⟨steps, h⟩ := runFor_reached n sched t
    refine ⟨steps ++ [sched t], ?_⟩
    change n.step (n.runFor sched t) (sched t) = _
    rw [h]
    simp [run]

/-- Whatever the schedule, from some point on nothing happens. -/
theorem comes_to_rest (hok : n.Ok) (sched : Nat → Step S) : ∃ T, ∀ t, T ≤ t → n.runFor sched t = n.runFor sched T := by
  obtain ⟨D, hD⟩ := depth_bound n
  have hdec : ∀ t, n.runFor sched (t + 1) = n.runFor sched t ∨
      Less (n.measure (n.runFor sched (t + 1))) (n.measure (n.runFor sched t)) := fun t =>
    step_less hok (inv_reached (runFor_reached n sched t)) (sched t)
  have hzero : ∀ st : State S α σ, ∀ j, 2 * (D + 1) ≤ j → n.measure st j = 0 := by
    intro st j hj
    have hempty : ∀ f, n.sumAt (j / 2) f = 0 := by
      intro f
      unfold sumAt
      have : (n.stages.filter fun s => decide (n.depth s = j / 2) && decide (s ≠ n.root)) = [] := by
        rw [List.filter_eq_nil_iff]
        intro s hs
        have := hD s hs
        simp only [Bool.and_eq_true, decide_eq_true_eq, not_and]
        intro e
        omega
      rw [this]
      rfl
    unfold measure
    split <;> exact hempty _
  obtain ⟨T, hT⟩ := settles_lex (fun t => n.measure (n.runFor sched t))
    (fun t => (hdec t).elim (fun h => Or.inl (by rw [h])) Or.inr) (2 * (D + 1)) 0
    (fun t _ j hj => by rw [hzero _ j hj, hzero _ j hj])
  have hstep : ∀ t, T ≤ t → n.runFor sched (t + 1) = n.runFor sched t := by
    intro t ht
    rcases hdec t with h | h
    · exact h
    · rw [hT t ht] at h
      exact absurd h less_irrefl
  refine ⟨T, fun t ht => ?_⟩
  obtain ⟨k, rfl⟩ := Nat.exists_eq_add_of_le ht
  clear ht
  induction k with
  | zero => rfl
  | succ k ih => rw [← Nat.add_assoc, hstep (T + k) (Nat.le_add_right _ _), ih]

end Net

end DD.Net
