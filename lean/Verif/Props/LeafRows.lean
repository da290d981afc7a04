/-
**C59**: what the progress of a running stage says about its size.
-/
import Verif.Model.LeafRows
import Verif.Spec.LeafRows
import Verif.Props.RuntimeStats
import Verif.Model.SamplerReport

namespace DD.Gather
open DD.Tree DD.Tree.Rec

variable {total nCols : Nat} {Row : Type}

/-! ### The rows the leaves are expected to give -/

theorem driverPathAll_mem {q : Plan Row} : ∀ {cs : List (Plan Row)}, q ∈ driverPathAll cs → ∃ c ∈ cs, q ∈ driverPath c
  | [], h => by simp [driverPathAll] at h
  | c :: cs, h => by
    rw [driverPathAll, List.mem_append] at h
    rcases h with h | h
    · exact ⟨c, List.mem_cons_self, h⟩
    · obtain ⟨d, hd, h⟩ := driverPathAll_mem h
      exact ⟨d, List.mem_cons_of_mem _ hd, h⟩

theorem driverPathAll_of_mem {q : Plan Row} : ∀ {cs : List (Plan Row)} {c}, c ∈ cs → q ∈ driverPath c → q ∈ driverPathAll cs
  | d :: cs, c, hc, h => by
    rw [driverPathAll, List.mem_append]
    rcases List.mem_cons.mp hc with rfl | hc
    · exact .inl h
    · exact .inr (driverPathAll_of_mem hc h)

theorem driverPath_other {k : Kind Row} {tc cs} (hk : ∀ m s, k ≠ .join m s) :
    driverPath (.node k tc cs) = .node k tc cs :: driverPathAll cs := by
  cases k <;> first | rfl | exact absurd rfl (hk _ _)

/-- **C59** The leaves that are visited are those whose rows stream through the stage. -/
theorem C59_streamed_leaves {p : Plan Row} (hp : TwoSided p) (q : Plan Row) :
    q ∈ (driverPath p).filter isLeaf ↔ Streams p q := by
  induction hp with
  | join m s tc l r _ _ _ ih =>
    rw [driverPath, List.filter_cons_of_neg (by simp [isLeaf]), ih]
    constructor
    · exact .probe m s tc l r q
    · intro h
      cases h with
      | probe _ _ _ _ _ _ h => exact h
      | under _ _ _ _ _ hk => exact absurd rfl (hk m s)
  | other k tc cs hk _ ih =>
    rw [driverPath_other hk]
    cases cs with
    | nil =>
      simp only [driverPathAll, List.filter_cons, isLeaf, List.isEmpty_nil, if_true, List.filter_nil, List.mem_singleton]
      constructor
      · rintro rfl; exact .leaf k tc
      · intro h
        cases h with
        | leaf => rfl
        | under _ _ _ _ _ _ hc => cases hc
    | cons c cs =>
      rw [List.filter_cons_of_neg (by simp [isLeaf])]
      constructor
      · intro h
        obtain ⟨h1, h2⟩ := List.mem_filter.mp h
        obtain ⟨d, hd, h1⟩ := driverPathAll_mem h1
        exact .under k tc _ d q hk hd ((ih d hd).mp (List.mem_filter.mpr ⟨h1, h2⟩))
      · intro h
        cases h with
        | probe => exact absurd rfl (hk _ _)
        | under _ _ _ d _ _ hd h =>
          obtain ⟨h1, h2⟩ := List.mem_filter.mp ((ih d hd).mpr h)
          exact List.mem_filter.mpr ⟨driverPathAll_of_mem hd h1, h2⟩

theorem sumLeaves_known : ∀ (ns : List Nat) (t : Nat), t + ns.sum < wordSize →
    sumLeaves (some t) (ns.map fun n => .ok (some n)) = some (t + ns.sum)
  | [], t, _ => rfl
  | n :: ns, t, h => by
    simp only [List.map_cons, List.sum_cons, sumLeaves] at h ⊢
    rw [Nat.mod_eq_of_lt (by omega), sumLeaves_known ns (t + n) (by omega)]
    congr 1; omega

theorem known_leaves {α : Type} (f : α → Except Err (Option Nat)) : ∀ (ls : List α), (∀ q ∈ ls, ∃ n, f q = .ok (some n)) →
    ∃ ns : List Nat, ls.map f = ns.map (fun n => .ok (some n)) ∧ ns.length = ls.length
  | [], _ => ⟨[], rfl, rfl⟩
  | q :: ls, h => by
    obtain ⟨n, hn⟩ := h q List.mem_cons_self
    obtain ⟨ns, h1, h2⟩ := known_leaves f ls fun x hx => h x (List.mem_cons_of_mem _ hx)
    exact ⟨n :: ns, by simp [hn, h1], by simp [h2]⟩

/-- **C59** If all leaves that stream know their rows, the stage is expected to read their sum; what the other leaves say, those below the
left sides of joins, plays no role. -/
theorem C59_expected_rows {p : Plan Row} (hp : TwoSided p) (rowsOf : Plan Row → Except Err (Option Nat)) (rows : Plan Row → Nat)
    (hk : ∀ q, Streams p q → rowsOf q = .ok (some (rows q))) (hne : ∃ q, Streams p q)
    (hw : (((driverPath p).filter isLeaf).map rows).sum < wordSize) :
    estimatedLeafRows rowsOf p = some (((driverPath p).filter isLeaf).map rows).sum := by
  unfold estimatedLeafRows
  have e : ((driverPath p).filter isLeaf).map rowsOf = (((driverPath p).filter isLeaf).map rows).map fun n => .ok (some n) := by
    rw [List.map_map]
    exact List.map_congr_left fun q hq => hk q ((C59_streamed_leaves hp q).mp hq)
  rw [e]
  obtain ⟨q, hq⟩ := hne
  have hmem := (C59_streamed_leaves hp q).mpr hq
  cases hl : (driverPath p).filter isLeaf with
  | nil => rw [hl] at hmem; cases hmem
  | cons a ls =>
    rw [hl] at hw
    simp only [List.map_cons, List.sum_cons, sumLeaves] at hw ⊢
    exact sumLeaves_known _ _ hw

/-- A stage none of whose leaves knows its rows has no expectation: `FALLBACK_PCT_COMPLETION` is used. -/
theorem C59_nothing_expected {p : Plan Row} (hp : TwoSided p) (rowsOf : Plan Row → Except Err (Option Nat))
    (hk : ∀ q, Streams p q → rowsOf q = .ok none) : estimatedLeafRows rowsOf p = none := by
  unfold estimatedLeafRows
  have : ∀ ls : List (Plan Row), (∀ q ∈ ls, rowsOf q = .ok none) → sumLeaves none (ls.map rowsOf) = none := by
    intro ls
    induction ls with
    | nil => intro _; rfl
    | cons q ls ih =>
      intro h
      rw [List.map_cons, h q List.mem_cons_self, sumLeaves]
      exact ih fun x hx => h x (List.mem_cons_of_mem _ hx)
  exact this _ fun q hq => hk q ((C59_streamed_leaves hp q).mp hq)

namespace Demo

/-- A scan. -/
def scan (rows : Nat) : Plan Nat := .node (.leaf [List.range rows]) (.desired 1) []

/-- The right rows that have a match. -/
def semi : JoinSpec Nat := ⟨.rightSemi, fun l r => l == r, fun _ _ => 0, fun r _ => r, id, id, none⟩

/-- A scan joined to the rows of two others. -/
def joined : Plan Nat :=
  .node (.join .collect semi) (.desired 1) [scan 7, .node .union (.desired 1) [scan 3, scan 2]]

/-- Scans know their rows. -/
def known : Plan Nat → Except Err (Option Nat)
  | .node (.leaf ps) _ _ => .ok (some ps.flatten.length)
  | _ => .ok none

/-- As `known`, but the scan of three rows cannot say. -/
def failing : Plan Nat → Except Err (Option Nat)
  | .node (.leaf ps) _ _ => if ps.flatten.length = 3 then .error (.exec "statistics") else .ok (some ps.flatten.length)
  | _ => .ok none

/-- As `known`, but nothing is known of the scan of three rows. -/
def silent : Plan Nat → Except Err (Option Nat)
  | .node (.leaf ps) _ _ => .ok (if ps.flatten.length = 3 then none else some ps.flatten.length)
  | _ => .ok none

end Demo

/-- The theorem applies: the right side of the join counts, the left does not. -/
example : TwoSided Demo.joined ∧ Streams Demo.joined (Demo.scan 2) ∧ estimatedLeafRows Demo.known Demo.joined = some 5 := by
  refine ⟨?_, ?_, by decide +kernel⟩
  · exact .join _ _ _ _ _ (.other _ _ _ (by intro _ _ h; cases h) (by simp)) (.other _ _ _ (by intro _ _ h; cases h) (by
      intro c hc
      simp only [List.mem_cons, List.not_mem_nil, or_false] at hc
      rcases hc with rfl | rfl <;> exact .other _ _ _ (by intro _ _ h; cases h) (by simp)))
  · exact .probe _ _ _ _ _ _ (.under _ _ _ (Demo.scan 2) _ (by intro _ _ h; cases h) (by simp) (.leaf _ _))

/-- **C59 is false** where some leaves do not know their rows: what they will give is not counted, but what they have given is, so the
progress of the stage is overestimated. A leaf whose statistics fail hides all that come after it. -/
theorem C59_unknown_leaves_false :
    estimatedLeafRows Demo.silent Demo.joined = some 2 ∧ estimatedLeafRows Demo.failing Demo.joined = none := by
  decide +kernel

/-! ### The rows the leaves have given -/

/-- **C59** Together the partitions of a task report the rows its leaves have given, but for less than one row for every partition and
leaf; never more. -/
theorem C59_reported_progress (leaves : List Nat) (partitions : Nat) (hp : 0 < partitions) :
    partitions * DD.Sampler.rowsPulled leaves partitions ≤ leaves.sum
    ∧ leaves.sum ≤ partitions * DD.Sampler.rowsPulled leaves partitions + leaves.length * (partitions - 1) := by
  unfold DD.Sampler.rowsPulled
  induction leaves with
  | nil => simp
  | cons n ls ih =>
    have h1 := Nat.div_add_mod n partitions
    have h2 := Nat.mod_lt n hp
    simp only [List.map_cons, List.sum_cons, List.length_cons, Nat.mul_add, Nat.add_mul, Nat.one_mul]
    omega

/-- **C59 is false** for stages with more partitions than their leaves have given rows: no progress is reported, and the stage is taken
for infinite (`C59_no_progress_blows_up`). -/
theorem C59_little_progress_false (leaves : List Nat) (partitions : Nat) (h : ∀ n ∈ leaves, n < partitions) :
    DD.Sampler.rowsPulled leaves partitions = 0 := by
  unfold DD.Sampler.rowsPulled
  induction leaves with
  | nil => rfl
  | cons n ls ih =>
    rw [List.map_cons, List.sum_cons, ih fun x hx => h x (List.mem_cons_of_mem _ hx),
      Nat.div_eq_of_lt (h n List.mem_cons_self)]

/-- Sixteen partitions over two leaves that have given 100 and 7 rows. -/
example : DD.Sampler.rowsPulled [100, 7] 16 = 6 ∧ DD.Sampler.rowsPulled [15, 7] 16 = 0 := by decide +kernel

/-! ### Size from progress -/

theorem toUsize_div (a b : Nat) : toUsize ((a : Rat) / (b : Rat)) = min (a / b) (wordSize - 1) := by
  unfold toUsize
  have : ((a : Rat) / (b : Rat)).floor = ((a / b : Nat) : Int) := by
    have := Rat.floor_natCast_div_natCast a b
    rw [Int.natCast_ediv]
    exact this
  rw [this, Int.toNat_natCast]

/-- The rows of a stage that has read `pulled` of the `leaf` rows of its leaves and made `rows` of them. -/
theorem scaleRows_progress {rows pulled leaf done eos : Nat} (he : eos ≠ done) (hp : 0 < pulled) (hl : pulled ≤ leaf) :
    scaleRows id rows (pct id (some leaf) done eos pulled) = min (rows * leaf / pulled) (wordSize - 1) := by
  have hlq : (0 : Rat) < leaf := by exact_mod_cast (by omega : 0 < leaf)
  have hpq : (0 : Rat) < pulled := by exact_mod_cast hp
  have h1 : pct id (some leaf) done eos pulled = (pulled : Rat) / leaf := by
    simp only [pct, if_neg he, if_neg (by omega : ¬ leaf = 0), id]
    apply min_eq_left
    rw [div_le_one hlq]
    exact_mod_cast hl
  rw [h1]
  unfold scaleRows
  rw [if_neg (by positivity)]
  simp only [id]
  have h2 : (rows : Rat) / ((pulled : Rat) / leaf) = ((rows * leaf : Nat) : Rat) / (pulled : Rat) := by
    push_cast
    field_simp
  rw [h2, toUsize_div]

theorem scaleRows_full {rows pulled leaf done eos : Nat} (h : eos = done ∨ leaf ≤ pulled) :
    scaleRows id rows (pct id (some leaf) done eos pulled) = min rows (wordSize - 1) := by
  have h1 : pct id (some leaf) done eos pulled = 1 := by
    unfold pct
    split
    · rfl
    · rename_i he
      rcases h with h | h
      · exact absurd h he
      · simp only
        split
        · rfl
        · rename_i hl
          have hlq : (0 : Rat) < leaf := by exact_mod_cast (by omega : 0 < leaf)
          apply min_eq_right
          simp only [id]
          rw [le_div_iff₀ hlq, one_mul]
          exact_mod_cast h
  rw [h1]
  unfold scaleRows
  rw [if_neg (by norm_num)]
  simp only [id, div_one]
  have := toUsize_div rows 1
  simpa using this

theorem sum_mul_le {f g : Report → Nat} {k : Nat} : ∀ {us : List Report}, (∀ r ∈ us, k * f r ≤ g r) →
    k * (us.map f).sum ≤ (us.map g).sum
  | [], _ => by simp
  | r :: us, h => by
    have := sum_mul_le (us := us) fun x hx => h x (List.mem_cons_of_mem _ hx)
    have := h r List.mem_cons_self
    simp only [List.map_cons, List.sum_cons, Nat.mul_add]; omega

theorem extrapolate_mul {a b d k : Nat} (hd : 0 < d) (h : k * a ≤ b) : k * (a * total / d) ≤ b * total / d := by
  rw [Nat.le_div_iff_mul_le hd]
  calc k * (a * total / d) * d = k * (a * total / d * d) := by ring
    _ ≤ k * (a * total) := Nat.mul_le_mul_left _ (Nat.div_mul_le_self _ _)
    _ = k * a * total := by ring
    _ ≤ b * total := Nat.mul_le_mul_right _ h

/-- **C59** A stage is not thought larger than its leaves allow: if every report shows at least `k` rows read for every row made, and
the reports do not show more rows read than the leaves are expected to give, at most one row is expected for `k` rows of the leaves.
(In exact arithmetic; `f32` rounds.) -/
theorem C59_at_most_what_the_leaves_allow {rs : List Report} {s : Stats} {leaf k : Nat} (hne : rs ≠ [])
    (h : gather id total nCols (some leaf) rs = .ok s) (hk : ∀ r ∈ rs, k * r.rows ≤ r.pulled)
    (hl : ∀ r ∈ rs, r.pulled * total ≤ leaf) : k * s.rows ≤ leaf := by
  obtain ⟨us, a, hp, hu, hr, hd, hs⟩ := gather_inv hne h
  have hdone : a.done = us.length := by rw [hr.done]; simp
  have hrows : a.rows = (us.map (·.rows)).sum := by rw [hr.rows]; simp
  have hpull : a.pulled = (us.map (·.pulled)).sum := by rw [hr.pulled]; simp
  have h1 : k * (a.rows * total / a.done) ≤ a.pulled * total / a.done := by
    apply extrapolate_mul (by omega)
    rw [hrows, hpull]
    exact sum_mul_le fun r hr => hk r (hp.subset hr)
  have h2 : a.pulled * total / a.done ≤ leaf := by
    apply Nat.div_le_of_le_mul
    rw [hpull, hdone]
    have : ∀ us : List Report, (∀ r ∈ us, r.pulled * total ≤ leaf) → (us.map (·.pulled)).sum * total ≤ us.length * leaf := by
      intro us
      induction us with
      | nil => intro _; simp
      | cons r us ih =>
        intro h
        have e1 := ih fun x hx => h x (List.mem_cons_of_mem _ hx)
        have e2 := h r List.mem_cons_self
        simp only [List.map_cons, List.sum_cons, List.length_cons, Nat.add_mul, Nat.one_mul]; omega
    exact this us fun r hr => hl r (hp.subset hr)
  generalize a.rows * total / a.done = rows at *
  generalize a.pulled * total / a.done = pulled at *
  have hn : k * scaleRows id rows (pct id (some leaf) a.done a.eos pulled) ≤ leaf := by
    by_cases hf : a.eos = a.done ∨ leaf ≤ pulled
    · rw [scaleRows_full hf]
      calc k * min rows (wordSize - 1) ≤ k * rows := Nat.mul_le_mul_left _ (Nat.min_le_left _ _)
        _ ≤ leaf := by omega
    · rw [not_or] at hf
      rcases Nat.eq_zero_or_pos pulled with h0 | h0
      · rcases Nat.eq_zero_or_pos k with rfl | hk0
        · omega
        · have : rows = 0 := by
            rcases Nat.eq_zero_or_pos rows with h | h
            · exact h
            · have := Nat.mul_pos hk0 h; omega
          subst this
          have : scaleRows id 0 (pct id (some leaf) a.done a.eos pulled) = 0 := by
            unfold scaleRows
            split
            · rfl
            · have := toUsize_nat (n := 0) (by decide)
              simpa using this
          rw [this]; omega
      · rw [scaleRows_progress hf.1 h0 h2]
        calc k * min (rows * leaf / pulled) (wordSize - 1) ≤ k * (rows * leaf / pulled) := Nat.mul_le_mul_left _ (Nat.min_le_left _ _)
          _ ≤ leaf := by
            apply Nat.le_of_mul_le_mul_right _ h0
            calc k * (rows * leaf / pulled) * pulled = k * (rows * leaf / pulled * pulled) := by ring
              _ ≤ k * (rows * leaf) := Nat.mul_le_mul_left _ (Nat.div_mul_le_self _ _)
              _ = k * rows * leaf := by ring
              _ ≤ pulled * leaf := Nat.mul_le_mul_right _ h1
              _ = leaf * pulled := by ring
  rcases hs with ⟨h3, rfl⟩ | ⟨_, h3, _⟩
  · simp [zeroStats]
  · rw [h3]; exact hn

/-- **C59** A stage in progress is thought as large as its leaves are: if every report shows at least `k` rows made for every row read,
and something was read, the estimate is at least `k` for every row the leaves are expected to give. (In exact arithmetic.) -/
theorem C59_at_least_what_the_leaves_give {rs : List Report} {s : Stats} {leaf k : Nat} (hne : rs ≠ []) (ht : 0 < total)
    (h : gather id total nCols (some leaf) rs = .ok s) (hk : ∀ r ∈ rs, k * r.pulled ≤ r.rows)
    (hrun : ∀ r ∈ rs, r.eos = false ∧ 0 < r.pulled) (hw : k * leaf < wordSize) : k * leaf ≤ s.rows := by
  obtain ⟨us, a, hp, hu, hr, hd, hs⟩ := gather_inv hne h
  have hdone : a.done = us.length := by rw [hr.done]; simp
  have hrows : a.rows = (us.map (·.rows)).sum := by rw [hr.rows]; simp
  have hpull : a.pulled = (us.map (·.pulled)).sum := by rw [hr.pulled]; simp
  have heos : a.eos = 0 := by
    rw [hr.eos]
    simp only [Nat.zero_add, List.length_eq_zero_iff, List.filter_eq_nil_iff]
    intro r hr
    simp [(hrun r (hp.subset hr)).1]
  have h1 : k * (a.pulled * total / a.done) ≤ a.rows * total / a.done := by
    apply extrapolate_mul (by omega)
    rw [hrows, hpull]
    exact sum_mul_le fun r hr => hk r (hp.subset hr)
  have h0 : 0 < a.pulled * total / a.done := by
    have := extrapolate_ge (s := a.pulled) (d := a.done) (lo := 1) (total := total) (by omega) (by
      rw [hdone, hpull]
      exact sum_ge fun r hr => (hrun r (hp.subset hr)).2)
    omega
  generalize a.rows * total / a.done = rows at *
  generalize a.pulled * total / a.done = pulled at *
  have hn : k * leaf ≤ scaleRows id rows (pct id (some leaf) a.done a.eos pulled) := by
    by_cases hf : leaf ≤ pulled
    · rw [scaleRows_full (.inr hf)]
      have := Nat.mul_le_mul_left k hf
      omega
    · rw [scaleRows_progress (by omega) h0 (by omega)]
      refine le_min ?_ (by omega)
      rw [Nat.le_div_iff_mul_le h0]
      calc k * leaf * pulled = k * pulled * leaf := by ring
        _ ≤ rows * leaf := Nat.mul_le_mul_right _ h1
  rcases hs with ⟨h3, rfl⟩ | ⟨_, h3, _⟩
  · rw [h3] at hn; exact Nat.le_trans hn (Nat.zero_le _)
  · rw [h3]; exact hn

/-- **C59** Evenly loaded partitions give the exact proportion, whichever of them report: with `made` rows made of `read` rows in every
partition, the stage is expected to make `made * leaf / read` rows of the `leaf` rows of its leaves. (In exact arithmetic.) -/
theorem C59_in_proportion {rs : List Report} {s : Stats} {leaf made read : Nat} (hne : rs ≠ []) (ht : 0 < total)
    (h : gather id total nCols (some leaf) rs = .ok s)
    (hrun : ∀ r ∈ rs, r.eos = false ∧ r.rows = made ∧ r.pulled = read) (hread : 0 < read) (hl : read * total ≤ leaf)
    (hw : made * leaf / read < wordSize) : s.rows = made * leaf / read := by
  obtain ⟨us, a, hp, hu, hr, hd, hs⟩ := gather_inv hne h
  have hdone : a.done = us.length := by rw [hr.done]; simp
  have hrows : a.rows = us.length * made := by
    rw [hr.rows]
    have : us.map (·.rows) = us.map fun _ => made := List.map_congr_left fun r hr => (hrun r (hp.subset hr)).2.1
    simp [this]
  have hpull : a.pulled = us.length * read := by
    rw [hr.pulled]
    have : us.map (·.pulled) = us.map fun _ => read := List.map_congr_left fun r hr => (hrun r (hp.subset hr)).2.2
    simp [this]
  have heos : a.eos = 0 := by
    rw [hr.eos]
    simp only [Nat.zero_add, List.length_eq_zero_iff, List.filter_eq_nil_iff]
    intro r hr
    simp [(hrun r (hp.subset hr)).1]
  have hpos : 0 < us.length := by omega
  rw [hrows, hpull, hdone, heos, Nat.mul_assoc, Nat.mul_assoc, Nat.mul_div_cancel_left _ hpos, Nat.mul_div_cancel_left _ hpos,
    scaleRows_progress (by omega) (Nat.mul_pos hread ht) hl] at hs
  have e : made * total * leaf / (read * total) = made * leaf / read := by
    rw [show made * total * leaf = made * leaf * total by ring]
    exact Nat.mul_div_mul_right _ _ ht
  rw [e, Nat.min_eq_left (by omega)] at hs
  rcases hs with ⟨h3, rfl⟩ | ⟨_, h3, _⟩
  · exact h3.symm
  · exact h3

/-- The theorems apply: a filter that keeps half of the rows; 400 of the 1000 rows of the leaves were read. -/
example : (gather id 4 1 (some 1000) [⟨50, 100, [500], [1], [0], false⟩, ⟨50, 100, [500], [1], [0], false⟩]).map (·.rows) = .ok 500 := by
  decide +kernel

end DD.Gather
