import Verif.Model.BroadcastQueue
import Mathlib.Tactic.ByContra
/- Invariants of the broadcast queue. -/
namespace DD.BQ
variable {α : Type}

/-- Producer side: what was pushed plus what is left is the script; the announced length is the entry count unless an
announcement is pending; closing happens last. -/
structure ProdInv (items : List α) (s : State α) : Prop where
  split : s.sh.entries ++ s.prod.todo = items
  lenLe : s.sh.watchLen ≤ s.sh.entries.length
  announced : s.prod.unannounced = false → s.sh.watchLen = s.sh.entries.length
  closed : s.sh.watchClosed = true → finished s
  closedSent : s.prod.closedSent = true → s.sh.watchClosed = true
  dead : s.sh.senderAlive = false → s.sh.watchClosed = true

structure ConsInv (s : State α) (c : Consumer α) : Prop where
  out : c.out = s.sh.entries.take c.index
  idxLe : c.index ≤ c.len
  lenLe : c.len ≤ s.sh.watchLen
  seenLe : ∀ v, c.seen = some v → v ≤ s.sh.version
  fresh : c.seen = some s.sh.version → c.len = s.sh.watchLen ∧ (s.sh.watchClosed = true → c.closed = true)
  closedAll : c.closed = true → s.sh.watchClosed = true ∧ c.len = s.sh.entries.length
  endedAll : c.ended = true → c.closed = true ∧ c.index = c.len

structure Inv (items : List α) (s : State α) : Prop where
  prod : ProdInv items s
  cons : ∀ i, ConsInv s (s.cons i)

theorem init_inv (items : List α) : Inv items (init items) :=
  { prod := { split := rfl, lenLe := Nat.le_refl _, announced := fun _ => rfl, closed := by simp [init],
              closedSent := by simp [init], dead := by simp [init] }
    cons := fun i => { out := rfl, idxLe := Nat.le_refl _, lenLe := Nat.le_refl _, seenLe := by simp [init],
                       fresh := by simp [init], closedAll := by simp [init], endedAll := by simp [init] } }

theorem prodStep_inv (items : List α) (s : State α) (h : Inv items s) : Inv items (prodStep s) := by
  obtain ⟨hp, hc⟩ := h
  unfold prodStep
  split
  · rename_i hu
    have hnc : s.sh.watchClosed = false := by
      by_contra hcl
      have := (hp.closed (by simpa using hcl)).2.1
      rw [hu] at this; exact absurd this (by simp)
    refine ⟨⟨hp.split, Nat.le_refl _, fun _ => rfl, ?_, ?_, ?_⟩, fun i => ?_⟩
    · intro hcl; exact absurd hcl (by simp [hnc])
    · intro hcs; exact absurd (hp.closedSent hcs) (by simp [hnc])
    · intro hd; exact absurd (hp.dead hd) (by simp [hnc])
    · have hci := hc i
      refine ⟨hci.out, hci.idxLe, Nat.le_trans hci.lenLe hp.lenLe, ?_, ?_, ?_, hci.endedAll⟩
      · intro v hv; exact Nat.le_succ_of_le (hci.seenLe v hv)
      · intro hv; exact absurd (hci.seenLe _ hv) (Nat.not_succ_le_self _)
      · intro hcl; exact absurd (hci.closedAll hcl).1 (by simp [hnc])
  · rename_i hu
    have hu' : s.prod.unannounced = false := by simpa using hu
    split
    · rename_i x rest htodo
      have hnc : s.sh.watchClosed = false := by
        by_contra hcl
        have := (hp.closed (by simpa using hcl)).1
        rw [htodo] at this; exact absurd this (by simp)
      refine ⟨⟨?_, ?_, ?_, ?_, ?_, ?_⟩, fun i => ?_⟩
      · have := hp.split; rw [htodo] at this; simpa using this
      · simp; exact Nat.le_succ_of_le hp.lenLe
      · intro h; exact absurd h (by simp)
      · intro hcl; exact absurd hcl (by simp [hnc])
      · intro hcs; exact absurd (hp.closedSent hcs) (by simp [hnc])
      · intro hd; exact absurd (hp.dead hd) (by simp [hnc])
      · have hci := hc i
        refine ⟨?_, hci.idxLe, hci.lenLe, hci.seenLe, hci.fresh, ?_, hci.endedAll⟩
        · have hle : (s.cons i).index ≤ s.sh.entries.length :=
            Nat.le_trans hci.idxLe (Nat.le_trans hci.lenLe hp.lenLe)
          simp only [List.take_append_of_le_length hle]; exact hci.out
        · intro hcl; exact absurd (hci.closedAll hcl).1 (by simp [hnc])
    · rename_i htodo
      split
      · rename_i hcs
        have hcs' : s.prod.closedSent = false := by simpa using hcs
        have hnc : s.sh.watchClosed = false := by
          by_contra hcl
          have := (hp.closed (by simpa using hcl)).2.2
          rw [hcs'] at this; exact absurd this (by simp)
        refine ⟨⟨hp.split, hp.lenLe, hp.announced, ?_, fun _ => rfl, fun _ => rfl⟩, fun i => ?_⟩
        · intro _; exact ⟨htodo, hu', rfl⟩
        · have hci := hc i
          refine ⟨hci.out, hci.idxLe, hci.lenLe, ?_, ?_, ?_, hci.endedAll⟩
          · intro v hv; exact Nat.le_succ_of_le (hci.seenLe v hv)
          · intro hv; exact absurd (hci.seenLe _ hv) (Nat.not_succ_le_self _)
          · intro hcl; exact absurd (hci.closedAll hcl).1 (by simp [hnc])
      · rename_i hcs
        have hcs' : s.prod.closedSent = true := by simpa using hcs
        refine ⟨⟨hp.split, hp.lenLe, hp.announced, hp.closed, hp.closedSent, fun _ => hp.closedSent hcs'⟩, fun i => ?_⟩
        have hci := hc i
        exact ⟨hci.out, hci.idxLe, hci.lenLe, hci.seenLe, hci.fresh, hci.closedAll, hci.endedAll⟩

theorem consStep_inv (items : List α) (s : State α) (hp : ProdInv items s) (c : Consumer α) (hci : ConsInv s c) :
    ConsInv s (consStep s.sh c) := by
  unfold consStep
  split
  · exact hci
  · rename_i hne
    have hidx : c.index ≤ s.sh.entries.length := Nat.le_trans hci.idxLe (Nat.le_trans hci.lenLe hp.lenLe)
    simp only
    split
    · rename_i v hv
      split at hv
      · rename_i hlt
        refine ⟨?_, hlt, hci.lenLe, hci.seenLe, hci.fresh, hci.closedAll, ?_⟩
        · rw [List.take_add_one, hv, ← hci.out]; rfl
        · intro h; exact absurd h hne
      · simp at hv
    · rename_i hv
      have hge : c.len ≤ c.index := by
        split at hv
        · rename_i hlt
          have : c.index < s.sh.entries.length := Nat.lt_of_lt_of_le hlt (Nat.le_trans hci.lenLe hp.lenLe)
          rw [List.getElem?_eq_getElem this] at hv; simp at hv
        · omega
      split
      · rename_i hcl
        refine ⟨hci.out, hci.idxLe, hci.lenLe, hci.seenLe, hci.fresh, hci.closedAll, ?_⟩
        intro _; exact ⟨hcl, Nat.le_antisymm hci.idxLe hge⟩
      · rename_i hcl
        split
        · refine ⟨hci.out, Nat.le_trans hci.idxLe hci.lenLe, Nat.le_refl _, ?_, ?_, ?_, ?_⟩
          · intro v hv; simp at hv; omega
          · intro _; exact ⟨rfl, fun h => h⟩
          · intro h
            refine ⟨h, hp.announced (hp.closed h).2.1⟩
          · intro h; exact absurd h hne
        · rename_i hseen
          have hseen' : c.seen = some s.sh.version := by simpa using hseen
          split
          · rename_i hal
            have hcl' : s.sh.watchClosed = true := hp.dead (by simpa using hal)
            have hf := hci.fresh hseen'
            refine ⟨hci.out, hci.idxLe, hci.lenLe, hci.seenLe, fun _ => ⟨hf.1, fun _ => rfl⟩, ?_, ?_⟩
            · intro _; exact ⟨hcl', by rw [hf.1]; exact hp.announced (hp.closed hcl').2.1⟩
            · intro h; exact absurd h hne
          · exact hci

theorem step_inv (items : List α) (s : State α) (st : Step) (hst : st ≠ .crash) (h : Inv items s) :
    Inv items (step s st) := by
  cases st with
  | prod => exact prodStep_inv items s h
  | crash => exact absurd rfl hst
  | cons i =>
    refine ⟨⟨h.prod.split, h.prod.lenLe, h.prod.announced, h.prod.closed, h.prod.closedSent, h.prod.dead⟩, ?_⟩
    intro j
    by_cases hj : j = i
    · subst hj
      have := consStep_inv items s h.prod (s.cons j) (h.cons j)
      simp only [step, if_true]
      exact ⟨this.out, this.idxLe, this.lenLe, this.seenLe, this.fresh, this.closedAll, this.endedAll⟩
    · have := h.cons j
      simp only [step, if_neg hj]
      exact ⟨this.out, this.idxLe, this.lenLe, this.seenLe, this.fresh, this.closedAll, this.endedAll⟩

theorem run_inv (items : List α) (steps : List Step) (hs : Step.crash ∉ steps) (s : State α) (h : Inv items s) :
    Inv items (run s steps) := by
  induction steps generalizing s with
  | nil => exact h
  | cons st steps ih =>
    simp only [List.mem_cons, not_or] at hs
    exact ih hs.2 _ (step_inv items s st (fun e => hs.1 e.symm) h)

/-- Remaining work of a consumer once the producer finished. -/
def remaining (s : State α) (c : Consumer α) : Nat :=
  if c.ended then 0
  else (s.sh.entries.length - c.index) + (if c.closed then 1 else if c.seen = some s.sh.version then 2 else 3)

end DD.BQ
