import Verif.Props.RuntimeStats
import Verif.Model.StageStats
import Mathlib.Data.List.Forall2
/-
What an exchange declares about the rows it delivers while a query runs (C59).
-/
namespace DD.Gather

variable {fl : Rat → Rat} {total nCols : Nat} {leafRows : Option Nat}

theorem avgLoop_bound : ∀ (vs : List (List Rat)) (acc r : List Rat) (k : Nat), avgLoop acc vs = .ok r →
    (∀ x ∈ acc, 0 ≤ x ∧ x ≤ k) → (∀ v ∈ vs, ∀ x ∈ v, 0 ≤ x ∧ x ≤ 1) → ∀ x ∈ r, 0 ≤ x ∧ x ≤ (k + vs.length : Nat) := by
  intro vs
  induction vs with
  | nil => intro acc r k h ha _ x hx; cases h; exact ha x hx
  | cons v vs ih =>
    intro acc r k h ha hv x hx
    unfold avgLoop at h
    by_cases he : v.isEmpty = true
    · rw [if_pos he] at h
      obtain ⟨h0, h1⟩ := ih acc r k h ha (fun w hw => hv w (List.mem_cons_of_mem _ hw)) x hx
      refine ⟨h0, le_trans h1 ?_⟩
      simp only [List.length_cons]; exact_mod_cast (by omega : k + vs.length ≤ k + (vs.length + 1))
    · rw [if_neg he] at h
      by_cases hl : acc.length ≠ v.length
      · rw [if_pos hl] at h; cases h
      · rw [if_neg hl] at h
        unfold elementWiseSum at h
        rw [if_neg hl] at h
        have h2 := ih _ r (k + 1) h (fun y hy => by
          obtain ⟨i, hi, rfl⟩ := List.getElem_of_mem hy
          simp only [List.length_zipWith] at hi
          rw [List.getElem_zipWith]
          have e1 := ha acc[i] (List.getElem_mem _)
          have e2 := hv v (by simp) (v[i]) (List.getElem_mem _)
          refine ⟨by linarith [e1.1, e2.1], ?_⟩
          push_cast; linarith [e1.2, e2.2]) (fun w hw => hv w (List.mem_cons_of_mem _ hw)) x hx
        refine ⟨h2.1, le_trans h2.2 ?_⟩
        simp only [List.length_cons]; exact_mod_cast (by omega : k + 1 + vs.length ≤ k + (vs.length + 1))

/-- An average of fractions is a fraction. -/
theorem vecAvgReduce_bound {vs : List (List Rat)} {r : List Rat} (h : vecAvgReduce vs = .ok r)
    (hv : ∀ v ∈ vs, ∀ x ∈ v, 0 ≤ x ∧ x ≤ 1) : ∀ x ∈ r, 0 ≤ x ∧ x ≤ 1 := by
  have key : ∀ (n : Nat) (vs : List (List Rat)) (r : List Rat), vs.length ≤ n → vecAvgReduceAux n vs = .ok r →
      (∀ v ∈ vs, ∀ x ∈ v, 0 ≤ x ∧ x ≤ 1) → ∀ x ∈ r, 0 ≤ x ∧ x ≤ 1 := by
    intro n vs
    induction vs with
    | nil => intro r _ h _ x hx; cases h; cases hx
    | cons v vs ih =>
      intro r hn h hv x hx
      unfold vecAvgReduceAux at h
      by_cases he : v.isEmpty = true
      · rw [if_pos he] at h
        exact ih r (by simp only [List.length_cons] at hn; omega) h (fun w hw => hv w (List.mem_cons_of_mem _ hw)) x hx
      · rw [if_neg he] at h
        cases ha : avgLoop v vs with
        | error e => rw [ha] at h; cases h
        | ok acc =>
          rw [ha] at h
          cases h
          unfold vecDiv at hx
          obtain ⟨y, hy, rfl⟩ := List.mem_map.mp hx
          have hb := avgLoop_bound vs v acc 1 ha (fun y hy => by simpa using hv v (by simp) y hy)
            (fun w hw => hv w (List.mem_cons_of_mem _ hw)) y hy
          have hn' : (1 + vs.length : Nat) ≤ n := by simp only [List.length_cons] at hn; omega
          have hnq : ((1 + vs.length : Nat) : Rat) ≤ n := by exact_mod_cast hn'
          have hpos : (0 : Rat) < n := by
            have : (0 : Rat) < ((1 + vs.length : Nat) : Rat) := by exact_mod_cast (by omega : 0 < 1 + vs.length)
            linarith
          refine ⟨div_nonneg hb.1 hpos.le, ?_⟩
          rw [div_le_one hpos]
          linarith [hb.2]
  exact key _ _ _ le_rfl h hv

theorem toUsize_le {q : Rat} {n : Nat} (h : q ≤ n) : toUsize q ≤ n := by
  unfold toUsize
  have h1 : q.floor ≤ (n : Int) := by
    by_contra hlt
    have h2 : ((n : Int) + 1 : Int) ≤ q.floor := by omega
    have h3 := Rat.le_floor_iff.mp h2
    have h4 : ((n : Rat) + 1) ≤ q := by exact_mod_cast h3
    linarith
  omega

/-- A fraction of a number of rows, as `f32`s compute it, is at most that number. -/
theorem part_le (hf : F32 fl) {n : Nat} (hn : n ≤ 2 ^ 24) {q : Rat} (hq : q ≤ 1) : toUsize (fl (q * fl n)) ≤ n := by
  apply toUsize_le
  rw [hf.nat n hn]
  have : q * (n : Rat) ≤ n := by
    have h0 : (0 : Rat) ≤ n := by exact_mod_cast Nat.zero_le n
    nlinarith
  calc fl (q * n) ≤ fl n := hf.mono _ _ this
    _ = n := hf.nat n hn

/-- **C59** No column is thought to have more nulls or more different values than there are rows, if the reports give fractions
of rows. -/
theorem C59_columns_within_rows (hf : F32 fl) {rs : List Report} {s : Stats}
    (h : gather fl total nCols leafRows rs = .ok s) (hn : s.rows ≤ 2 ^ 24)
    (hq : ∀ r ∈ rs, (∀ x ∈ r.ndv, 0 ≤ x ∧ x ≤ 1) ∧ ∀ x ∈ r.null, 0 ≤ x ∧ x ≤ 1) :
    ∀ c ∈ s.cols, c.nulls ≤ s.rows ∧ c.distinct ≤ s.rows := by
  have hz : ∀ c ∈ (zeroStats nCols).cols, c.nulls ≤ (zeroStats nCols).rows ∧ c.distinct ≤ (zeroStats nCols).rows := by
    intro c hc; simp only [zeroStats, List.mem_replicate] at hc; rw [hc.2]; simp
  unfold gather at h
  obtain ⟨a, h1, h⟩ := bind_ok h
  obtain ⟨us, hp, hu, hr⟩ := collect_reads h1
  have hndv : ∀ v ∈ a.ndv, ∀ x ∈ v, 0 ≤ x ∧ x ≤ 1 := by
    intro v hv; rw [hr.ndv] at hv
    simp only [List.nil_append, List.mem_map] at hv
    obtain ⟨r, hr', rfl⟩ := hv
    exact (hq r (hp.subset hr')).1
  have hnull : ∀ v ∈ a.null, ∀ x ∈ v, 0 ≤ x ∧ x ≤ 1 := by
    intro v hv; rw [hr.null] at hv
    simp only [List.nil_append, List.mem_map] at hv
    obtain ⟨r, hr', rfl⟩ := hv
    exact (hq r (hp.subset hr')).2
  unfold estimate at h
  by_cases hd : a.done = 0
  · rw [if_pos hd] at h; cases h; exact hz
  rw [if_neg hd] at h
  simp only at h
  by_cases hn0 : scaleRows fl (a.rows * total / a.done) (pct fl leafRows a.done a.eos (a.pulled * total / a.done)) = 0
  · rw [if_pos hn0] at h; cases h; exact hz
  · rw [if_neg hn0] at h
    obtain ⟨ndv, h2, h⟩ := bind_ok h
    by_cases hl1 : ndv.length ≠ nCols
    · rw [if_pos hl1] at h; cases h
    · rw [if_neg hl1] at h
      obtain ⟨null, h3, h⟩ := bind_ok h
      by_cases hl2 : null.length ≠ nCols
      · rw [if_pos hl2] at h; cases h
      · rw [if_neg hl2] at h
        cases h
        intro c hc
        obtain ⟨i, hi, rfl⟩ := List.getElem_of_mem hc
        simp only [List.length_zipWith] at hi
        simp only [List.getElem_zipWith, List.getElem_zip]
        exact ⟨part_le hf hn (vecAvgReduce_bound h3 hnull _ (List.getElem_mem _)).2,
          part_le hf hn (vecAvgReduce_bound h2 hndv _ (List.getElem_mem _)).2⟩

/-- **C59** Nothing is declared exact but emptiness. -/
theorem C59_exact_only_empty {rs : List Report} {s : Stats} (h : gather fl total nCols leafRows rs = .ok s)
    (he : s.exact = true) : s.rows = 0 ∧ s.bytes = 0 ∧ ∀ c ∈ s.cols, c = ⟨0, 0, 0⟩ := by
  have hz : s = zeroStats nCols → s.rows = 0 ∧ s.bytes = 0 ∧ ∀ c ∈ s.cols, c = ⟨0, 0, 0⟩ := by
    rintro rfl
    exact ⟨rfl, rfl, fun c hc => (List.mem_replicate.mp hc).2⟩
  unfold gather at h
  obtain ⟨a, h1, h⟩ := bind_ok h
  unfold estimate at h
  by_cases hd : a.done = 0
  · rw [if_pos hd] at h; cases h; exact hz rfl
  rw [if_neg hd] at h
  simp only at h
  by_cases hn0 : scaleRows fl (a.rows * total / a.done) (pct fl leafRows a.done a.eos (a.pulled * total / a.done)) = 0
  · rw [if_pos hn0] at h; cases h; exact hz rfl
  · rw [if_neg hn0] at h
    obtain ⟨ndv, h2, h⟩ := bind_ok h
    by_cases hl1 : ndv.length ≠ nCols
    · rw [if_pos hl1] at h; cases h
    · rw [if_neg hl1] at h
      obtain ⟨null, h3, h⟩ := bind_ok h
      by_cases hl2 : null.length ≠ nCols
      · rw [if_pos hl2] at h; cases h
      · rw [if_neg hl2] at h; cases h; cases he

/-- **C59 is false for stages that have nothing ready yet.** For every number of partitions and columns and every estimate of what
is to be read: as long as the partitions that report have no rows ready, the stage is declared to have exactly no rows, also when none
of them has ended and thousands of rows have been read. -/
theorem C59_exactly_empty_false (hf : F32 fl) (ht : 0 < total) :
    ∃ rs : List Report, rs.length = total ∧ (∀ r ∈ rs, r.eos = false ∧ 1000 ≤ r.pulled) ∧
      gather fl total nCols leafRows rs = .ok (zeroStats nCols) ∧ (zeroStats nCols).exact = true := by
  refine ⟨List.replicate total ⟨0, 1000, List.replicate nCols 0, List.replicate nCols 0, List.replicate nCols 0, false⟩, by simp,
    fun r hr => by rw [(List.mem_replicate.mp hr).2]; simp, ?_, rfl⟩
  have key : ∀ (k : Nat) (a : Acc), a.withBytes = 0 → a.rows = 0 → a.bytes = List.replicate nCols 0 →
      ∃ b, collect total a (List.replicate k ⟨0, 1000, List.replicate nCols 0, List.replicate nCols 0, List.replicate nCols 0, false⟩)
        = .ok b ∧ b.rows = 0 := by
    intro k
    induction k with
    | zero => intro a _ h2 _; exact ⟨a, rfl, h2⟩
    | succ k ih =>
      intro a h1 h2 h3
      have hs : elementWiseSum a.bytes (List.replicate nCols 0) = .ok (List.replicate nCols 0) := by
        unfold elementWiseSum; rw [h3]; simp
      have hb : Report.hasBytes ⟨0, 1000, List.replicate nCols 0, List.replicate nCols 0, List.replicate nCols 0, false⟩ = false := by
        simp [Report.hasBytes]
      have he : ¬ enough total ≤ 0 := by unfold enough; omega
      rw [List.replicate_succ]
      simp only [collect, hs, hb, h1, bind, Except.bind, Bool.toNat_false, Nat.add_zero, if_neg he]
      split
      · exact ⟨_, rfl, h2⟩
      · exact ih _ rfl h2 rfl
  obtain ⟨b, hb, hr⟩ := key total { bytes := List.replicate nCols 0 } rfl rfl rfl
  unfold gather
  rw [hb]
  simp only [bind, Except.bind, estimate, hr, Nat.zero_mul, Nat.zero_div]
  have hz : ∀ p, scaleRows fl 0 p = 0 := by
    intro p
    unfold scaleRows
    have h0 : fl ((0 : Nat) : Rat) = ((0 : Nat) : Rat) := hf.nat 0 (by omega)
    split
    · rfl
    · rw [h0]
      have : fl (((0 : Nat) : Rat) / p) = ((0 : Nat) : Rat) := by
        rw [show (((0 : Nat) : Rat) / p) = ((0 : Nat) : Rat) by simp, h0]
      rw [this]
      exact toUsize_nat (by unfold wordSize; omega)
  simp only [hz, if_true, ite_self]

theorem share_le (hf : F32 fl) {count n : Nat} (hc : 0 < count) (hn : n ≤ 2 ^ 24) : share fl count n ≤ n := by
  unfold share
  rw [if_neg (by omega)]
  rw [show fl n * fl (1 / fl count) = fl (1 / fl count) * fl n from Rat.mul_comm _ _]
  refine part_le hf hn (hf.le_one ?_)
  have h1 : (1 : Rat) ≤ fl count := by
    have := hf.mono ((1 : Nat) : Rat) (count : Rat) (by exact_mod_cast hc)
    rw [hf.nat 1 (by omega)] at this
    exact_mod_cast this
  rw [div_le_one (by linarith)]
  exact h1

/-- **C59** What an exchange declares for all its partitions is what its stage declares: of a stage that has not been sent, what its plan
declares; of one that runs, what was measured, or nothing. -/
theorem C59_declared_in_total (st : StageStats) (count : Nat) :
    partitionStatistics fl st none count = match st with
      | .local_ compute => (compute none).map some
      | .remote runtime => .ok runtime := by
  cases st with
  | local_ c => rfl
  | remote r => cases r <;> rfl

/-- **C59** What an exchange declares for one partition of a running stage is at most what it declares for all of them, and it is
declared exact only where there is nothing. -/
theorem C59_declared_per_partition (hf : F32 fl) {rs : List Report} {s t : Stats} {p count : Nat}
    (h : gather fl total nCols leafRows rs = .ok s) (hc : 0 < count) (hn : s.rows ≤ 2 ^ 24)
    (ht : partitionStatistics fl (.remote (some s)) (some p) count = .ok (some t)) :
    t.rows ≤ s.rows ∧ (t.exact = true → t.rows = 0) ∧ t.cols.length = s.cols.length := by
  cases ht
  refine ⟨share_le hf hc hn, fun he => ?_, by simp [multiplyStats]⟩
  have h1 := share_le (fl := fl) hf hc hn
  rw [(C59_exact_only_empty h he).1] at h1
  simp only [multiplyStats, (C59_exact_only_empty h he).1]; omega

theorem share_id {count n : Nat} (hc : 0 < count) (hn : n < wordSize) : share id count n = n / count := by
  have hcq : (0 : Rat) < count := by exact_mod_cast hc
  simp only [share, if_neg (by omega : ¬ count = 0), id, toUsize]
  have hfl : ((n : Rat) * (1 / (count : Rat))).floor = ((n / count : Nat) : Int) := by
    rw [mul_one_div]
    have h1 : ((n / count : Nat) : Int) ≤ ((n : Rat) / count).floor := by
      rw [Rat.le_floor_iff, le_div_iff₀ hcq]
      exact_mod_cast Nat.div_mul_le_self n count
    have h2 : ¬ ((n / count : Nat) : Int) + 1 ≤ ((n : Rat) / count).floor := by
      rw [Rat.le_floor_iff, le_div_iff₀ hcq]
      intro hle
      have hle' : (n / count + 1) * count ≤ n := by exact_mod_cast hle
      have := Nat.div_add_mod n count
      have := Nat.mod_lt n hc
      rw [Nat.add_mul, Nat.mul_comm (n / count)] at hle'
      omega
    omega
  rw [hfl]
  have : n / count ≤ n := Nat.div_le_self _ _
  simp only [Int.toNat_natCast]; omega

/-- `part` is what each of `count` partitions has of `whole`: together at most everything, and less than one per partition is lost. -/
def ShareOf (count part whole : Nat) : Prop := count * part ≤ whole ∧ whole < count * (part + 1)

theorem shareOf_div {count n : Nat} (hc : 0 < count) : ShareOf count (n / count) n := by
  refine ⟨Nat.mul_div_le _ _, ?_⟩
  rw [Nat.mul_add, Nat.mul_one]
  have := Nat.div_add_mod n count
  have := Nat.mod_lt n hc
  omega

/-- **C59** and with exact arithmetic the partitions together have at most what is declared for all, and less than one per partition is
lost: of the rows, of the bytes, and of the nulls, the distinct values and the bytes of every column. -/
theorem C59_partitions_add_up {s t : Stats} {p count : Nat} (hc : 0 < count) (hn : s.rows < wordSize) (hb : s.bytes < wordSize)
    (hcol : ∀ c ∈ s.cols, c.nulls < wordSize ∧ c.distinct < wordSize ∧ c.bytes < wordSize)
    (ht : partitionStatistics id (.remote (some s)) (some p) count = .ok (some t)) :
    ShareOf count t.rows s.rows ∧ ShareOf count t.bytes s.bytes ∧
    List.Forall₂ (fun part whole => ShareOf count part.nulls whole.nulls ∧ ShareOf count part.distinct whole.distinct
      ∧ ShareOf count part.bytes whole.bytes) t.cols s.cols := by
  cases ht
  refine ⟨?_, ?_, ?_⟩
  · simp only [multiplyStats, share_id hc hn]; exact shareOf_div hc
  · simp only [multiplyStats, share_id hc hb]; exact shareOf_div hc
  · simp only [multiplyStats]
    rw [List.forall₂_map_left_iff]
    refine List.forall₂_same.mpr fun c h => ?_
    obtain ⟨h1, h2, h3⟩ := hcol c h
    rw [share_id hc h1, share_id hc h2, share_id hc h3]
    exact ⟨shareOf_div hc, shareOf_div hc, shareOf_div hc⟩

/-! Cases that meet the hypotheses. -/

example : (gather id 2 1 none [⟨600, 600, [6000], [1/2], [1/3], true⟩]).map (fun s => (s.rows, s.exact, s.cols.map fun c => (c.nulls, c.distinct)))
    = .ok (1200, false, [(400, 600)]) := by decide +kernel

example : (multiplyStats id 4 ⟨false, 1200, 12000, [⟨400, 600, 12000⟩]⟩).rows = 300 := by decide +kernel

example : (gather id 3 2 (some 100000) [⟨0, 1000, [0, 0], [0, 0], [0, 0], false⟩]).map (·.exact) = .ok true := by decide +kernel

end DD.Gather
