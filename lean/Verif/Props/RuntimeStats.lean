/-
**C59**: the statistics of a running stage.
-/
import Verif.Model.RuntimeStats
import Verif.Props.Stats

namespace DD.Gather

/-- What is used of `f32`: rounding is monotone and keeps the integers up to `2^24`. -/
structure F32 (fl : Rat → Rat) : Prop where
  mono : ∀ a b, a ≤ b → fl a ≤ fl b
  nat : ∀ n : Nat, n ≤ 2 ^ 24 → fl n = n

/-- Exact arithmetic is one such rounding. -/
theorem F32.exact : F32 id := ⟨fun _ _ h => h, fun _ _ => rfl⟩

variable {fl : Rat → Rat} {total nCols : Nat} {leafRows : Option Nat}

/-! ### The loop -/

/-- Column `i` summed over some reports. -/
def colSum (rs : List Report) (i : Nat) : Nat := (rs.map fun r => r.bytes.getD i 0).sum

theorem sum_getD {a b : List Nat} (h : a.length = b.length) (i : Nat) :
    (List.zipWith (· + ·) a b).getD i 0 = a.getD i 0 + b.getD i 0 := by
  simp only [List.getD_eq_getElem?_getD, List.getElem?_zipWith]
  rcases Nat.lt_or_ge i a.length with hi | hi
  · have hj : i < b.length := by omega
    simp [hi, hj]
  · have hj : b.length ≤ i := by omega
    simp [List.getElem?_eq_none hi, List.getElem?_eq_none hj]

theorem elementWiseSum_ok {a b c : List Nat} (h : elementWiseSum a b = .ok c) :
    a.length = b.length ∧ c = List.zipWith (· + ·) a b := by
  unfold elementWiseSum at h
  split at h
  · cases h
  · rename_i hl; cases h; exact ⟨by simpa using hl, rfl⟩

/-- What the loop computes: sums over the reports it has read, a prefix of all reports. -/
structure Reads (a : Acc) (us : List Report) (b : Acc) : Prop where
  done : b.done = a.done + us.length
  eos : b.eos = a.eos + (us.filter (·.eos)).length
  rows : b.rows = a.rows + (us.map (·.rows)).sum
  pulled : b.pulled = a.pulled + (us.map (·.pulled)).sum
  len : b.bytes.length = a.bytes.length
  bytes : ∀ i, b.bytes.getD i 0 = a.bytes.getD i 0 + colSum us i
  widths : ∀ r ∈ us, r.bytes.length = a.bytes.length
  ndv : b.ndv = a.ndv ++ us.map (·.ndv)
  null : b.null = a.null ++ us.map (·.null)

theorem collect_reads : ∀ {rs : List Report} {a b : Acc}, collect total a rs = .ok b →
    ∃ us, us <+: rs ∧ (rs ≠ [] → us ≠ []) ∧ Reads a us b
  | [], a, b, h => by
    rw [collect] at h; cases h
    exact ⟨[], List.prefix_refl _, id, by simp, by simp, by simp, by simp, rfl, by simp [colSum], by simp, by simp, by simp⟩
  | r :: rs, a, b, h => by
    rw [collect] at h
    cases hb : elementWiseSum a.bytes r.bytes with
    | error e => rw [hb] at h; cases h
    | ok bs =>
      rw [hb] at h
      obtain ⟨hl, hbs⟩ := elementWiseSum_ok hb
      have hlen : bs.length = a.bytes.length := by rw [hbs, List.length_zipWith]; omega
      have one : ∀ b : Acc, ⟨a.withBytes + r.hasBytes.toNat, a.done + 1, a.eos + r.eos.toNat, a.rows + r.rows,
          a.pulled + r.pulled, bs, a.ndv ++ [r.ndv], a.null ++ [r.null]⟩ = b → Reads a [r] b := by
        rintro _ rfl
        refine ⟨by simp, ?_, by simp, by simp, hlen, ?_, ?_, by simp, by simp⟩
        · cases hq : r.eos <;> simp [hq]
        · intro i; simp only [colSum, List.map_cons, List.map_nil, List.sum_cons, List.sum_nil, Nat.add_zero]
          rw [hbs, sum_getD hl]
        · intro x hx; simp at hx; subst hx; exact hl.symm
      change (if _ then _ else _) = _ at h
      split at h
      · cases h
        exact ⟨[r], ⟨rs, rfl⟩, by simp, one _ rfl⟩
      · split at h
        · cases h
          exact ⟨[r], ⟨rs, rfl⟩, by simp, one _ rfl⟩
        · obtain ⟨us, ⟨t, ht⟩, _, hr⟩ := collect_reads h
          refine ⟨r :: us, ⟨t, by rw [← ht]; rfl⟩, by simp, ?_, ?_, ?_, ?_, ?_, ?_, ?_, ?_, ?_⟩
          · rw [hr.done]; simp only [List.length_cons]; omega
          · rw [hr.eos, List.filter_cons]; simp only; cases r.eos <;> simp <;> omega
          · rw [hr.rows]; simp only [List.map_cons, List.sum_cons]; omega
          · rw [hr.pulled]; simp only [List.map_cons, List.sum_cons]; omega
          · rw [hr.len]; exact hlen
          · intro i
            rw [hr.bytes]
            simp only [colSum, List.map_cons, List.sum_cons]
            rw [hbs, sum_getD hl]; omega
          · intro x hx
            rcases List.mem_cons.mp hx with rfl | hx
            · exact hl.symm
            · rw [hr.widths x hx]; exact hlen
          · rw [hr.ndv]; simp
          · rw [hr.null]; simp

/-- **C59** The decision is made as soon as a fifth of the partitions have reported data, and at the latest when all
partitions have reported: nothing that comes after is read. -/
theorem C59_never_waits_for_more (rs rest : List Report)
    (h : enough total ≤ (rs.filter (·.hasBytes)).length ∨ (0 < total ∧ rs.length = total)) :
    gather fl total nCols leafRows (rs ++ rest) = gather fl total nCols leafRows rs := by
  have key : ∀ (rs : List Report) (a : Acc), (enough total ≤ a.withBytes + (rs.filter (·.hasBytes)).length
      ∧ a.withBytes < enough total) ∨ (a.done < total ∧ a.done + rs.length = total) →
      collect total a (rs ++ rest) = collect total a rs := by
    intro rs
    induction rs with
    | nil =>
      intro a h
      simp only [List.filter_nil, List.length_nil, Nat.add_zero] at h
      omega
    | cons r rs ih =>
      intro a h
      rw [List.cons_append, collect, collect]
      cases hb : elementWiseSum a.bytes r.bytes with
      | error e => rfl
      | ok bs =>
        change (if _ then _ else _) = (if _ then _ else _)
        split
        · rfl
        · rename_i h1
          split
          · rfl
          · rename_i h2
            apply ih
            simp only [List.length_cons, List.filter_cons] at h h1 h2 ⊢
            rcases h with h | h
            · left
              refine ⟨?_, by omega⟩
              have := h.1
              cases hr : r.hasBytes <;> simp only [hr, Bool.toNat_false, Bool.toNat_true, if_true, Bool.false_eq_true,
                if_false, List.length_cons] at this ⊢ <;> omega
            · right; omega
  have h1 : 1 ≤ enough total := Nat.le_max_right _ _
  unfold gather
  rw [key]
  simp only
  rcases h with h | h
  · left; omega
  · right; omega

/-- **C59** A report with another number of columns is refused, if it is read. -/
theorem C59_other_columns_refused (pre post : List Report) (r : Report) (hpre : pre.length < total)
    (hb : (pre.filter (·.hasBytes)).length < enough total) (hr : r.bytes.length ≠ nCols) :
    ∃ e, gather fl total nCols leafRows (pre ++ r :: post) = .error (.internal e) := by
  have key : ∀ (pre : List Report) (a : Acc), a.done + pre.length < total →
      a.withBytes + (pre.filter (·.hasBytes)).length < enough total → r.bytes.length ≠ a.bytes.length →
      ∃ e, collect total a (pre ++ r :: post) = .error (.internal e) := by
    intro pre
    induction pre with
    | nil =>
      intro a _ _ h
      rw [List.nil_append, collect]
      unfold elementWiseSum
      rw [if_pos (Ne.symm h)]
      exact ⟨_, rfl⟩
    | cons x pre ih =>
      intro a h1 h2 h3
      rw [List.cons_append, collect]
      cases hb : elementWiseSum a.bytes x.bytes with
      | error e =>
        unfold elementWiseSum at hb
        split at hb
        · cases hb; exact ⟨_, rfl⟩
        · cases hb
      | ok bs =>
        obtain ⟨hl, hbs⟩ := elementWiseSum_ok hb
        have hlen : bs.length = a.bytes.length := by rw [hbs, List.length_zipWith]; omega
        have hcount : (a.withBytes + x.hasBytes.toNat) + (pre.filter (·.hasBytes)).length < enough total := by
          rw [List.filter_cons] at h2
          cases hx : x.hasBytes <;> simp [hx] at h2 ⊢ <;> omega
        simp only [List.length_cons] at h1
        have h0 : a.done + 1 ≠ total := by omega
        have h0' : ¬ enough total ≤ a.withBytes + x.hasBytes.toNat := by omega
        change ∃ e, (if enough total ≤ a.withBytes + x.hasBytes.toNat then _ else if a.done + 1 = total then _ else _) = _
        rw [if_neg h0', if_neg h0]
        exact ih _ (by simp only; omega) (by simp only; omega) (by simp only; rw [hlen]; exact h3)
  obtain ⟨e, he⟩ := key pre { bytes := List.replicate nCols 0 } (by simpa using hpre) (by simpa using hb) (by simpa using hr)
  exact ⟨e, by unfold gather; rw [he]; rfl⟩

/-! ### The estimate -/

theorem F32.nonneg (h : F32 fl) {q : Rat} (hq : 0 ≤ q) : 0 ≤ fl q := by
  have h1 := h.mono 0 q hq
  have h2 := h.nat 0 (by omega)
  simp only [Nat.cast_zero] at h2
  rw [h2] at h1
  exact h1

theorem F32.le_one (h : F32 fl) {q : Rat} (hq : q ≤ 1) : fl q ≤ 1 := by
  have h1 := h.mono q 1 hq
  have h2 := h.nat 1 (by omega)
  simp only [Nat.cast_one] at h2
  rw [h2] at h1
  exact h1

theorem pct_range (h : F32 fl) (done eos pulled : Nat) : 0 ≤ pct fl leafRows done eos pulled
    ∧ pct fl leafRows done eos pulled ≤ 1 := by
  unfold pct
  split
  · exact ⟨by norm_num, le_refl 1⟩
  · split
    · split
      · exact ⟨by norm_num, le_refl 1⟩
      · refine ⟨le_min (h.nonneg (div_nonneg (h.nonneg (by positivity)) (h.nonneg (by positivity)))) (by norm_num), min_le_right _ _⟩
    · exact ⟨h.nonneg (by norm_num), h.le_one (by norm_num)⟩

theorem toUsize_ge {q : Rat} {n : Nat} (h : (n : Rat) ≤ q) (hn : n < wordSize) : n ≤ toUsize q := by
  unfold toUsize
  refine le_min ?_ (by omega)
  have : (n : Int) ≤ q.floor := Rat.le_floor_iff.mpr (by exact_mod_cast h)
  omega

theorem toUsize_nat {n : Nat} (hn : n < wordSize) : toUsize (n : Rat) = n := by
  unfold toUsize
  have : ((n : Rat)).floor = (n : Int) := by
    have := Rat.floor_intCast (a := (n : Int))
    simpa using this
  rw [this]
  simp only [Int.toNat_natCast]
  omega

theorem scaleRows_ge (h : F32 fl) {rows n : Nat} {p : Rat} (h0 : 0 ≤ p) (h1 : p ≤ 1) (hn : n ≤ 2 ^ 24) (hr : n ≤ rows) :
    n ≤ scaleRows fl rows p := by
  have hw : (2 : Nat) ^ 24 < wordSize := by decide
  unfold scaleRows
  split
  · split
    · omega
    · omega
  · rename_i hp
    have hp' : 0 < p := lt_of_le_of_ne h0 (Ne.symm hp)
    have e1 : (n : Rat) ≤ fl rows := by
      rw [← h.nat n hn]; exact h.mono _ _ (by exact_mod_cast hr)
    have e2 : (n : Rat) ≤ fl rows / p := by
      rw [le_div_iff₀ hp']
      calc (n : Rat) * p ≤ n * 1 := by apply mul_le_mul_of_nonneg_left h1; positivity
        _ ≤ fl rows := by rw [mul_one]; exact e1
    refine toUsize_ge ?_ (by omega)
    rw [← h.nat n hn]
    exact h.mono _ _ e2

theorem scaleRows_one (h : F32 fl) {rows : Nat} (hr : rows ≤ 2 ^ 24) : scaleRows fl rows 1 = rows := by
  have hw : (2 : Nat) ^ 24 < wordSize := by decide
  unfold scaleRows
  rw [if_neg (by norm_num), div_one, h.nat rows hr, h.nat rows hr]
  exact toUsize_nat (by omega)

theorem byteFactor_one (h : F32 fl) : byteFactor fl 1 = 1 := by
  unfold byteFactor
  rw [if_neg (by norm_num)]
  have := h.nat 1 (by omega)
  simp only [Nat.cast_one] at this
  rw [div_one, this]
  have := toUsize_nat (n := 1) (by decide)
  simpa using this

theorem sum_ge {f : Report → Nat} {lo : Nat} : ∀ {us : List Report}, (∀ r ∈ us, lo ≤ f r) → us.length * lo ≤ (us.map f).sum
  | [], _ => by simp
  | r :: us, h => by
    have := sum_ge (us := us) fun x hx => h x (List.mem_cons_of_mem _ hx)
    have := h r List.mem_cons_self
    simp only [List.length_cons, List.map_cons, List.sum_cons, Nat.add_mul]; omega

theorem sum_le {f : Report → Nat} {hi : Nat} : ∀ {us : List Report}, (∀ r ∈ us, f r ≤ hi) → (us.map f).sum ≤ us.length * hi
  | [], _ => by simp
  | r :: us, h => by
    have := sum_le (us := us) fun x hx => h x (List.mem_cons_of_mem _ hx)
    have := h r List.mem_cons_self
    simp only [List.length_cons, List.map_cons, List.sum_cons, Nat.add_mul]; omega

/-- Extrapolating an average. -/
theorem extrapolate_ge {s d lo total : Nat} (hd : 0 < d) (h : d * lo ≤ s) : lo * total ≤ s * total / d := by
  rw [Nat.le_div_iff_mul_le hd]
  calc lo * total * d = d * lo * total := by ring
    _ ≤ s * total := Nat.mul_le_mul_right _ h

theorem extrapolate_le {s d hi total : Nat} (hd : 0 < d) (h : s ≤ d * hi) : s * total / d ≤ hi * total := by
  apply Nat.div_le_of_le_mul
  calc s * total ≤ d * hi * total := Nat.mul_le_mul_right _ h
    _ = d * (hi * total) := by ring

theorem bind_ok {α β : Type} {x : Except Err α} {f : α → Except Err β} {b : β} (h : x >>= f = .ok b) :
    ∃ a, x = .ok a ∧ f a = .ok b := by
  cases x with
  | error e => cases h
  | ok a => exact ⟨a, rfl, h⟩

/-- The statistics a decision is based on: of the reports `us`, which were read. -/
theorem gather_inv {rs : List Report} {s : Stats} (hne : rs ≠ []) (h : gather fl total nCols leafRows rs = .ok s) :
    ∃ us a, us <+: rs ∧ us ≠ [] ∧ Reads { bytes := List.replicate nCols 0 } us a ∧ a.done ≠ 0
      ∧ ((scaleRows fl (a.rows * total / a.done) (pct fl leafRows a.done a.eos (a.pulled * total / a.done)) = 0
          ∧ s = zeroStats nCols)
        ∨ (scaleRows fl (a.rows * total / a.done) (pct fl leafRows a.done a.eos (a.pulled * total / a.done)) ≠ 0
          ∧ s.rows = scaleRows fl (a.rows * total / a.done) (pct fl leafRows a.done a.eos (a.pulled * total / a.done))
          ∧ s.cols.length = nCols
          ∧ s.bytes = (s.cols.map (·.bytes)).sum % wordSize
          ∧ ∀ i c, s.cols[i]? = some c → c.bytes = (a.bytes.getD i 0 * total / a.done)
              * byteFactor fl (pct fl leafRows a.done a.eos (a.pulled * total / a.done)) % wordSize)) := by
  unfold gather at h
  obtain ⟨a, h1, h⟩ := bind_ok h
  obtain ⟨us, hp, hu, hr⟩ := collect_reads h1
  have hd : a.done ≠ 0 := by
    rw [hr.done]
    have := List.length_pos_iff.mpr (hu hne)
    omega
  refine ⟨us, a, hp, hu hne, hr, hd, ?_⟩
  unfold estimate at h
  rw [if_neg hd] at h
  simp only at h
  by_cases hn : scaleRows fl (a.rows * total / a.done) (pct fl leafRows a.done a.eos (a.pulled * total / a.done)) = 0
  · rw [if_pos hn] at h
    cases h
    exact .inl ⟨hn, rfl⟩
  · rw [if_neg hn] at h
    obtain ⟨ndv, h2, h⟩ := bind_ok h
    by_cases hl1 : ndv.length ≠ nCols
    · rw [if_pos hl1] at h; cases h
    · rw [if_neg hl1] at h
      obtain ⟨null, h3, h⟩ := bind_ok h
      by_cases hl2 : null.length ≠ nCols
      · rw [if_pos hl2] at h; cases h
      · rw [if_neg hl2] at h
        cases h
        have hb : a.bytes.length = nCols := by rw [hr.len]; simp
        have hcols : ∀ (f : Rat × Rat → Nat → Column) (g : Nat → Nat) (hf : ∀ x b, (f x b).bytes = b),
            (List.zipWith f (ndv.zip null) (((vecMul a.bytes total).map (· / a.done)).map g)).map (·.bytes)
              = ((vecMul a.bytes total).map (· / a.done)).map g := by
          intro f g hf
          rw [List.map_zipWith]
          simp only [hf]
          apply List.ext_getElem
          · simp [vecMul]; omega
          · intro i h1 h2; simp
        refine .inr ⟨hn, rfl, ?_, ?_, ?_⟩
        · simp [vecMul]; omega
        · simp only
          rw [hcols]
          intro x b; rfl
        · intro i c hc
          have hc' := congrArg (fun o : Option Column => o.map Column.bytes) hc
          simp only [Option.map_some] at hc'
          rw [← List.getElem?_map, hcols _ _ (fun _ _ => rfl)] at hc'
          simp only [vecMul, List.getElem?_map, Option.map_eq_some_iff] at hc'
          obtain ⟨_, ⟨_, ⟨x, hx, rfl⟩, rfl⟩, hc'⟩ := hc'
          rw [← hc', List.getD_eq_getElem?_getD, hx]; rfl

/-- **C59** A stage is never thought smaller than its samples show: if every report has at least `lo` rows ready, the
estimate is at least `lo` per partition (up to `2^24` rows, from where `f32` rounds), whatever the progress of the
stage and whatever the estimate of the rows it reads. -/
theorem C59_at_least_what_is_ready (hf : F32 fl) {rs : List Report} {s : Stats} (hne : rs ≠ [])
    (h : gather fl total nCols leafRows rs = .ok s) {lo : Nat} (hlo : ∀ r ∈ rs, lo ≤ r.rows) (hb : lo * total ≤ 2 ^ 24) :
    lo * total ≤ s.rows := by
  obtain ⟨us, a, hp, hu, hr, hd, hs⟩ := gather_inv hne h
  have hdone : a.done = us.length := by rw [hr.done]; simp
  have hrows : a.rows = (us.map (·.rows)).sum := by rw [hr.rows]; simp
  have h1 : lo * total ≤ a.rows * total / a.done := by
    apply extrapolate_ge (by omega)
    rw [hdone, hrows]
    exact sum_ge fun r hr => hlo r (hp.subset hr)
  have h2 := scaleRows_ge hf (pct_range (leafRows := leafRows) hf a.done a.eos (a.pulled * total / a.done)).1
    (pct_range (leafRows := leafRows) hf a.done a.eos (a.pulled * total / a.done)).2 hb h1
  rcases hs with ⟨h3, rfl⟩ | ⟨_, h3, _⟩
  · rw [h3] at h2; exact Nat.le_trans h2 (Nat.zero_le _)
  · rw [h3]; exact h2

/-- **C59** If every partition that reports has ended, the estimate is an average: with between `lo` and `hi` rows in every
report it is between `lo` and `hi` per partition; the same for the bytes of every column. In particular it is exact if the
partitions are equally large, whichever of them report first. -/
theorem C59_average_of_ended_partitions (hf : F32 fl) {rs : List Report} {s : Stats} (hne : rs ≠ [])
    (h : gather fl total nCols leafRows rs = .ok s) (heos : ∀ r ∈ rs, r.eos = true) {lo hi : Nat}
    (hlo : ∀ r ∈ rs, lo ≤ r.rows ∧ r.rows ≤ hi) (hb : hi * total ≤ 2 ^ 24) :
    (lo * total ≤ s.rows ∧ s.rows ≤ hi * total)
    ∧ (s.rows ≠ 0 → s.cols.length = nCols ∧ s.bytes = (s.cols.map (·.bytes)).sum % wordSize ∧ ∀ i c lo hi, s.cols[i]? = some c →
        (∀ r ∈ rs, lo ≤ r.bytes.getD i 0 ∧ r.bytes.getD i 0 ≤ hi) → hi * total < wordSize →
        lo * total ≤ c.bytes ∧ c.bytes ≤ hi * total) := by
  have hle : lo ≤ hi := by
    obtain ⟨r, hr⟩ := List.exists_mem_of_ne_nil rs hne
    have := hlo r hr; omega
  obtain ⟨us, a, hp, hu, hr, hd, hs⟩ := gather_inv hne h
  have hdone : a.done = us.length := by rw [hr.done]; simp
  have hrows : a.rows = (us.map (·.rows)).sum := by rw [hr.rows]; simp
  have heq : a.eos = a.done := by
    rw [hr.eos, hdone, List.filter_eq_self.mpr fun r hr => heos r (hp.subset hr)]; simp
  have hpct : pct fl leafRows a.done a.eos (a.pulled * total / a.done) = 1 := by
    unfold pct; rw [if_pos heq]
  rw [hpct] at hs
  have h1 : lo * total ≤ a.rows * total / a.done := by
    apply extrapolate_ge (by omega)
    rw [hdone, hrows]
    exact sum_ge fun r hr => (hlo r (hp.subset hr)).1
  have h2 : a.rows * total / a.done ≤ hi * total := by
    apply extrapolate_le (by omega)
    rw [hdone, hrows]
    exact sum_le fun r hr => (hlo r (hp.subset hr)).2
  rw [scaleRows_one hf (by omega)] at hs
  rcases hs with ⟨h3, rfl⟩ | ⟨h3, h4, h5, h6, h7⟩
  · refine ⟨?_, fun h => absurd rfl h⟩
    simp only [zeroStats]; omega
  · refine ⟨by omega, fun _ => ⟨h5, h6, ?_⟩⟩
    intro i c lo hi hc hbs hw
    have hsum : a.bytes.getD i 0 = colSum us i := by
      rw [hr.bytes]
      simp only [List.getD_eq_getElem?_getD, List.getElem?_replicate]
      split <;> simp
    have e1 : lo * total ≤ a.bytes.getD i 0 * total / a.done := by
      apply extrapolate_ge (by omega)
      rw [hdone, hsum]
      exact sum_ge fun r hr => (hbs r (hp.subset hr)).1
    have e2 : a.bytes.getD i 0 * total / a.done ≤ hi * total := by
      apply extrapolate_le (by omega)
      rw [hdone, hsum]
      exact sum_le fun r hr => (hbs r (hp.subset hr)).2
    rw [h7 i c hc, byteFactor_one hf, Nat.mul_one, Nat.mod_eq_of_lt (by omega)]
    exact ⟨e1, e2⟩

/-- **C59** No report, no rows: a stage whose samplers never report is taken for empty. -/
theorem C59_no_reports : gather fl total nCols leafRows [] = .ok (zeroStats nCols) := rfl

/-! ### Where the estimate goes wrong -/

namespace Demo

/-- A partition with 600 rows of 10 bytes, which have been made of 600 rows of its leaves. -/
def half (eos : Bool) : Report := ⟨600, 600, [6000], [1], [0], eos⟩

/-- A partition that has rows ready before its leaves have reported any. -/
def early : Report := ⟨600, 0, [6000], [1], [0], false⟩

end Demo

/-- **C59 is false for bytes.** The rows of a stage in progress are divided by its progress, the bytes multiplied by its
inverse rounded down to an integer. Here three fifths of a single partition of 1000 rows of 10 bytes are ready: the rows
are estimated right, but of the 10000 bytes only the 6000 seen so far are counted. -/
theorem C59_bytes_not_scaled_false :
    (gather id 1 1 (some 1000) [Demo.half false]).map (fun s => (s.rows, s.bytes)) = .ok (1000, 6000) := by
  decide +kernel

/-- **C59 is false** for a stage that has rows ready while its leaves have not counted any (they count when a batch has been
handed on): its progress is zero, and its rows are estimated as `usize::MAX`. -/
theorem C59_no_progress_blows_up :
    (gather id 1 1 (some 1000) [Demo.early]).map (fun s => s.rows) = .ok (wordSize - 1) := by
  decide +kernel

/-- With more than one partition the estimate depends on which partition reports first. -/
theorem C59_first_report_decides :
    (gather id 2 1 none [⟨10, 10, [10], [1], [0], true⟩, ⟨1000, 1000, [1000], [1], [0], true⟩]).map (·.rows) = .ok 20
    ∧ (gather id 2 1 none [⟨1000, 1000, [1000], [1], [0], true⟩, ⟨10, 10, [10], [1], [0], true⟩]).map (·.rows) = .ok 2000 := by
  decide +kernel

/-- The theorems apply: ten partitions, two reports decide. -/
example : (gather id 10 1 none [Demo.half true, Demo.half true, Demo.half false]).toOption
    = some ⟨false, 6000, 60000, [⟨0, 6000, 60000⟩]⟩ := by decide +kernel

end DD.Gather
