/-
C96: text files that are cut into byte ranges.
-/
import Verif.Model.Ranges
import Verif.Props.Leaf

namespace DD.Ranges
open Spec

/-! ### Rows and quotation marks -/

theorem rowsFrom_quotes (l : List Char) : ∀ (q : Bool) (cur : List Char),
    ((rowsFrom q cur l).map quotes).sum = quotes cur + quotes l := by
  induction l with
  | nil =>
    intro q cur
    unfold rowsFrom
    split
    · rename_i h; subst h; rfl
    · simp [quotes]
  | cons c cs ih =>
    intro q cur
    unfold rowsFrom
    split
    · rename_i h; subst h
      rw [ih]; simp [quotes]; omega
    · rename_i h
      split
      · rw [List.map_cons, List.sum_cons, ih]
        simp [quotes, List.count_cons, h]
      · rw [ih]; simp [quotes, List.count_cons, h]

theorem rowsFrom_even (l : List Char) : ∀ (q : Bool) (cur : List Char),
    (q = true ↔ Odd (quotes cur)) → Even (quotes cur + quotes l) →
    ∀ r ∈ rowsFrom q cur l, Even (quotes r) := by
  induction l with
  | nil =>
    intro q cur _ he r hr
    unfold rowsFrom at hr
    split at hr
    · simp at hr
    · simp only [List.mem_singleton] at hr
      subst hr
      simpa [quotes] using he
  | cons c cs ih =>
    intro q cur hq he r hr
    unfold rowsFrom at hr
    split at hr
    · rename_i h; subst h
      refine ih _ _ ?_ ?_ r hr
      · have : quotes (cur ++ ['"']) = quotes cur + 1 := by simp [quotes]
        rw [this, Nat.odd_add_one, Nat.not_odd_iff_even]
        cases q
        · simp only [Bool.not_false, true_iff]
          simpa using hq
        · simp only [Bool.not_true, Bool.false_eq_true, false_iff, Nat.not_even_iff_odd]
          simpa using hq
      · have : quotes (cur ++ ['"']) + quotes cs = quotes cur + quotes ('"' :: cs) := by
          simp [quotes]; omega
        rwa [this]
    · rename_i h
      have hc : quotes (c :: cs) = quotes cs := by simp [quotes, List.count_cons, h]
      rw [hc] at he
      split at hr
      · rename_i hn
        have hcur : Even (quotes cur) := by
          rw [← Nat.not_odd_iff_even, ← hq]; simp [hn.2]
        rcases List.mem_cons.mp hr with rfl | hr
        · exact hcur
        · refine ih false [] (by simp [quotes]) ?_ r hr
          rw [Nat.even_add] at he
          simpa [quotes] using he.mp hcur
      · have hcc : quotes (cur ++ [c]) = quotes cur := by simp [quotes, List.count_cons, h]
        exact ih q (cur ++ [c]) (by rw [hcc]; exact hq) (by rw [hcc]; exact he) r hr

theorem rowsFrom_append (a b : List Char) : ∀ (q : Bool) (cur : List Char),
    (q = true ↔ Odd (quotes a)) →
    rowsFrom q cur (a ++ '\n' :: b) = rowsFrom q cur (a ++ ['\n']) ++ rowsFrom false [] b := by
  induction a with
  | nil =>
    intro q cur hq
    have : q = false := by
      cases q
      · rfl
      · simp [quotes] at hq
    subst this
    simp [rowsFrom]
  | cons c cs ih =>
    intro q cur hq
    rw [List.cons_append, List.cons_append]
    by_cases h : c = '"'
    · subst h
      rw [rowsFrom, rowsFrom, if_pos rfl, if_pos rfl]
      apply ih
      have : quotes ('"' :: cs) = quotes cs + 1 := by simp [quotes]
      rw [this, Nat.odd_add_one] at hq
      cases q
      · simp only [Bool.false_eq_true, false_iff, not_not] at hq
        simpa using hq
      · simp only [true_iff] at hq
        simpa using hq
    · have hc : quotes (c :: cs) = quotes cs := by simp [quotes, List.count_cons, h]
      rw [hc] at hq
      rw [rowsFrom, rowsFrom, if_neg h, if_neg h]
      split
      · rename_i hn
        rw [List.cons_append, ih false [] (by rw [← hq]; simp [hn.2])]
      · exact ih q _ hq

/-- A text read in two parts, the first of which ends a line outside quoted values. -/
theorem rows_append (a b : List Char) (ha : Even (quotes a)) (hl : a = [] ∨ b = [] ∨ a.getLast? = some '\n') :
    rows (a ++ b) = rows a ++ rows b := by
  rcases hl with rfl | rfl | hl
  · simp [rows, rowsFrom]
  · simp [rows, rowsFrom]
  · obtain ⟨x, rfl⟩ : ∃ x, a = x ++ ['\n'] := by
      rw [List.getLast?_eq_some_iff] at hl
      exact hl
    have hx : quotes (x ++ ['\n']) = quotes x := by simp [quotes]
    rw [hx] at ha
    unfold rows
    rw [List.append_assoc]
    refine rowsFrom_append x b false [] ?_
    simp [Nat.not_odd_iff_even, ha]

/-! ### Where ranges begin and end -/

theorem align_le (t : List Char) (pos : Nat) : align t pos ≤ t.length := by
  unfold align
  split
  · omega
  · exact Nat.min_le_left _ _

/-- The reader moves an end of a range to the next line start. -/
theorem align_nextLine (t : List Char) (pos : Nat) (h : pos ≤ t.length) : NextLine t pos (align t pos) := by
  unfold align
  split
  · rename_i h0; subst h0
    exact ⟨le_refl _, .inl rfl, fun m _ _ => Nat.zero_le m⟩
  · rename_i h0
    set i := (t.drop (pos - 1)).findIdx (· == '\n') with hi
    refine ⟨by omega, ?_, ?_⟩
    · by_cases hlt : i < (t.drop (pos - 1)).length
      · have h1 := List.findIdx_getElem (w := hi ▸ hlt)
        have h2 : (t.drop (pos - 1))[i]? = some '\n' := by
          rw [List.getElem?_eq_getElem hlt]
          simpa [← hi] using h1
        rw [List.getElem?_drop] at h2
        rw [List.length_drop] at hlt
        refine .inr (.inr ⟨by omega, ?_⟩)
        rw [Nat.min_eq_right (by omega)]
        rw [← h2]; congr 1; omega
      · rw [List.length_drop] at hlt
        exact .inr (.inl (by omega))
    · intro m hm hs
      rcases hs with hs | hs | ⟨hs, hn⟩
      · omega
      · omega
      · by_contra hlt
        have hlt : m < pos + i := by omega
        have hj : m - pos < i := by omega
        have h1 := List.not_of_lt_findIdx (hi ▸ hj)
        have h2 : (t.drop (pos - 1))[m - pos]? = some '\n' := by
          rw [List.getElem?_drop, ← hn]; congr 1; omega
        obtain ⟨hb, h3⟩ := List.getElem?_eq_some_iff.mp h2
        simp [h3] at h1

theorem nextLine_unique (t : List Char) (pos n m : Nat) (hn : NextLine t pos n) (hm : NextLine t pos m) : n = m :=
  Nat.le_antisymm (hn.2.2 m hm.1 hm.2.1) (hm.2.2 n hn.1 hn.2.1)

theorem align_mono (t : List Char) (a b : Nat) (h : a ≤ b) (hb : b ≤ t.length) : align t a ≤ align t b :=
  (align_nextLine t a (le_trans h hb)).2.2 _ (le_trans h (align_nextLine t b hb).1) (align_nextLine t b hb).2.1

theorem take_split (t : List Char) (a b : Nat) (h : a ≤ b) : t.take b = t.take a ++ (t.take b).drop a := by
  conv => lhs; rw [← List.take_append_drop a (t.take b)]
  rw [List.take_take, Nat.min_eq_left h]

theorem quotes_append (a b : List Char) : quotes (a ++ b) = quotes a + quotes b := by simp [quotes]

/-- Ranges that end outside quoted values are read as the text they cover. -/
theorem read_tiles (t : List Char) (ps : List (Nat × Nat)) : ∀ lo, lo ≤ t.length → Tiles t.length lo ps →
    ¬ InsideValue t (align t lo) → (∀ p ∈ ps, ¬ InsideValue t (align t p.2)) →
    ps.flatMap (fun p => readRange t p.1 p.2) = rows (t.drop (align t lo)) := by
  induction ps with
  | nil =>
    intro lo hlo ht _ _
    have ht : lo = t.length := ht
    have h1 := (align_nextLine t lo hlo).1
    have h2 := align_le t lo
    rw [List.drop_eq_nil_of_le (by omega)]
    rfl
  | cons p ps ih =>
    intro lo hlo ht he hall
    obtain ⟨a, b⟩ := p
    obtain ⟨rfl, hab, hb, ht⟩ := ht
    have heb := hall (a, b) List.mem_cons_self
    rw [List.flatMap_cons, ih b hb ht heb fun p hp => hall p (List.mem_cons_of_mem _ hp)]
    have hm := align_mono t a b hab hb
    have hsplit : t.drop (align t a) = (t.take (align t b)).drop (align t a) ++ t.drop (align t b) := by
      have hlen : align t a ≤ (t.take (align t b)).length := by
        rw [List.length_take]
        have := align_le t b
        omega
      rw [← List.drop_append_of_le_length hlen, List.take_append_drop]
    rw [hsplit, rows_append]
    · rfl
    · simp only [InsideValue, Nat.not_odd_iff_even] at he heb
      have := take_split t _ _ hm
      rw [this, quotes_append, Nat.even_add] at heb
      exact heb.mp he
    · rcases Nat.lt_or_ge (align t a) (align t b) with hlt | hge
      · rcases (align_nextLine t b hb).2.1 with h0 | hs | ⟨h0, hn⟩
        · omega
        · refine .inr (.inl ?_)
          rw [List.drop_eq_nil_of_le (by omega)]
        · refine .inr (.inr ?_)
          have hl := align_le t b
          rw [List.getLast?_eq_getElem?, List.getElem?_drop, List.length_drop, List.length_take,
            Nat.min_eq_left hl, List.getElem?_take, if_pos (by omega), ← hn]
          congr 1; omega
      · refine .inl ?_
        apply List.drop_eq_nil_of_le
        rw [List.length_take]
        omega

/-- If a range ends inside a quoted value, some range begins outside and ends inside one. -/
theorem exists_crossing (t : List Char) (ps : List (Nat × Nat)) : ∀ lo, Tiles t.length lo ps →
    ¬ InsideValue t (align t lo) → (∃ p ∈ ps, InsideValue t (align t p.2)) →
    ∃ p ∈ ps, p.1 ≤ p.2 ∧ p.2 ≤ t.length ∧ ¬ InsideValue t (align t p.1) ∧ InsideValue t (align t p.2) := by
  induction ps with
  | nil => rintro lo _ _ ⟨p, hp, _⟩; simp at hp
  | cons p ps ih =>
    intro lo ht he hex
    obtain ⟨a, b⟩ := p
    obtain ⟨rfl, hab, hb, ht⟩ := ht
    by_cases hin : InsideValue t (align t b)
    · exact ⟨(a, b), List.mem_cons_self, hab, hb, he, hin⟩
    · obtain ⟨p, hp, hi⟩ := hex
      rcases List.mem_cons.mp hp with rfl | hp
      · exact absurd hi hin
      · obtain ⟨p', hp', h⟩ := ih b ht hin ⟨p, hp, hi⟩
        exact ⟨p', List.mem_cons_of_mem _ hp', h⟩

/-- A range that begins outside and ends inside a quoted value returns a row with an unclosed value. -/
theorem crossing_row (t : List Char) (a b : Nat) (hab : a ≤ b) (hb : b ≤ t.length)
    (h1 : ¬ InsideValue t (align t a)) (h2 : InsideValue t (align t b)) :
    ∃ r ∈ readRange t a b, Odd (quotes r) := by
  by_contra hno
  simp only [not_exists, not_and, Nat.not_odd_iff_even] at hno
  have hsum := rowsFrom_quotes ((t.take (align t b)).drop (align t a)) false []
  have heven : Even ((rowsFrom false [] ((t.take (align t b)).drop (align t a))).map quotes).sum := by
    have : ∀ (l : List (List Char)), (∀ r ∈ l, Even (quotes r)) → Even (l.map quotes).sum := by
      intro l
      induction l with
      | nil => intro _; simp
      | cons x xs ih =>
        intro h
        rw [List.map_cons, List.sum_cons]
        exact (h x List.mem_cons_self).add (ih fun r hr => h r (List.mem_cons_of_mem _ hr))
    exact this _ hno
  rw [hsum] at heven
  have h0 : quotes [] = 0 := rfl
  rw [h0, Nat.zero_add] at heven
  unfold InsideValue at h1 h2
  rw [take_split t _ _ (align_mono t a b hab hb), quotes_append, Nat.odd_add'] at h2
  rw [Nat.not_odd_iff_even] at h1
  exact absurd (h2.mpr h1) (by rwa [Nat.not_odd_iff_even])

/-! ### C96 -/

/-- Contract of DataFusion's `FileGroupPartitioner` (external): every file of the scan is cut into ranges that
follow each other from its beginning to its end; how many and where is free, and so is how the ranges are
grouped. `size` gives the size of each file, and `parts` lists the ranges of each file of the scan. -/
def CutInto (size : Nat → Nat) (groups cut : List (List Piece)) : Prop :=
  ∃ parts : List (Piece × List (Nat × Nat)),
    parts.map (·.1) = groups.flatten
    ∧ (∀ p ∈ parts, p.1.lo = 0 ∧ p.1.hi = size p.1.file ∧ Tiles (size p.1.file) 0 p.2)
    ∧ cut.flatten.Perm (parts.flatMap fun p => p.2.map fun r => ⟨p.1.file, r.1, r.2⟩)

/-- The rows of the files of the scan. -/
def fileRows (files : Nat → List Char) (groups : List (List Piece)) : List (List Char) :=
  groups.flatten.flatMap fun p => rows (files p.file)

/-- What the tasks of a scan read together is what its pieces contain. -/
theorem scaleUp_rows {α : Type} (rd : Piece → List α) (cut : Nat → Option (List (List Piece)))
    (groups r : List (List Piece)) (partitionCount tasks : Nat) (d : Leaf.DistLeaf α)
    (hT : 0 < tasks) (hc : (cut (partitionCount * tasks)).getD groups = r)
    (hd : Leaf.scaleUp rd false cut groups partitionCount tasks = .ok d) :
    d.variants.flatten.flatten.Perm (r.flatten.flatMap rd) := by
  obtain ⟨s, s1, s2, s3, -⟩ := Leaf.spread_ok r (List.replicate tasks []) 0 (.inr (by simpa using hT))
  have hf : Leaf.fileScans false cut groups partitionCount tasks = .ok s := by
    unfold Leaf.fileScans
    rw [hc]
    exact s1
  have hs : s.flatten.Perm r := by simpa using s3
  unfold Leaf.scaleUp at hd
  rw [hf] at hd
  have hv : d.variants = s.map fun x => x.map (·.flatMap rd) := by
    change Leaf.DistLeaf.tryNew _ _ = _ at hd
    unfold Leaf.DistLeaf.tryNew at hd
    split at hd
    · simp at hd
    · rename_i v vs hvs
      split at hd
      · simp only [Except.ok.injEq] at hd
        rw [← hd]; exact hvs.symm
      · simp at hd
  have hflat : (s.map fun x => x.map (·.flatMap rd)).flatten.flatten = s.flatten.flatten.flatMap rd := by
    rw [← List.map_flatten]
    generalize s.flatten = l
    induction l with
    | nil => rfl
    | cons x xs ih => simp [List.flatMap_append] at ih ⊢; rw [ih]
  rw [hv, hflat]
  exact hs.flatten.flatMap_right _

theorem scan_rows (files : Nat → List Char) (cut : Nat → Option (List (List Piece)))
    (groups r : List (List Piece)) (partitionCount tasks : Nat) (d : Leaf.DistLeaf (List Char))
    (hT : 0 < tasks) (hc : (cut (partitionCount * tasks)).getD groups = r)
    (hd : scan files false cut groups partitionCount tasks = .ok d) :
    d.variants.flatten.flatten.Perm (r.flatten.flatMap (readPiece files)) :=
  scaleUp_rows (readPiece files) cut groups r partitionCount tasks d hT hc hd

/-- **C96** For every scan of text files whose quoted values are closed, every way of cutting the files into
ranges and every number of tasks: the tasks together return the rows of the files **exactly when** no range
ends where the next line begins inside a quoted value. -/
theorem C96_exactly_when_no_value_is_cut_partial (files : Nat → List Char)
    (cut : Nat → Option (List (List Piece))) (groups r : List (List Piece)) (partitionCount tasks : Nat)
    (d : Leaf.DistLeaf (List Char)) (hT : 0 < tasks)
    (hc : cut (partitionCount * tasks) = some r) (hr : CutInto (fun i => (files i).length) groups r)
    (hw : ∀ p ∈ groups.flatten, WellFormed (files p.file))
    (hd : scan files false cut groups partitionCount tasks = .ok d) :
    d.variants.flatten.flatten.Perm (fileRows files groups)
      ↔ ∀ p ∈ r.flatten, ∀ n, NextLine (files p.file) p.hi n → ¬ InsideValue (files p.file) n := by
  have hperm := scan_rows files cut groups r partitionCount tasks d hT (by rw [hc]; rfl) hd
  obtain ⟨parts, hp, hall, hcut⟩ := hr
  have hread : (r.flatten.flatMap (readPiece files)).Perm
      (parts.flatMap fun p => p.2.flatMap fun x => readRange (files p.1.file) x.1 x.2) := by
    refine (hcut.flatMap_right _).trans (List.Perm.of_eq ?_)
    rw [List.flatMap_assoc]
    congr 1
    funext p
    rw [List.flatMap_map]
    rfl
  have hzero : ∀ t : List Char, ¬ InsideValue t (align t 0) := by
    intro t
    simp [InsideValue, align, quotes]
  have hle : ∀ (size : Nat) (ps : List (Nat × Nat)) (lo : Nat), Tiles size lo ps → ∀ x ∈ ps, x.2 ≤ size := by
    intro size ps
    induction ps with
    | nil => intro _ _ x hx; simp at hx
    | cons q ps ih =>
      intro lo ht x hx
      obtain ⟨a, b⟩ := q
      obtain ⟨-, -, hb, ht⟩ := ht
      rcases List.mem_cons.mp hx with rfl | hx
      · exact hb
      · exact ih b ht x hx
  have hmem : ∀ p ∈ parts, ∀ x ∈ p.2, (⟨p.1.file, x.1, x.2⟩ : Piece) ∈ r.flatten := by
    intro p hpp x hx
    exact hcut.mem_iff.mpr (List.mem_flatMap.mpr ⟨p, hpp, List.mem_map.mpr ⟨x, hx, rfl⟩⟩)
  have hwhole : fileRows files groups = parts.flatMap fun p => rows (files p.1.file) := by
    unfold fileRows
    rw [← hp, List.flatMap_map]
  constructor
  · intro h p hpm n hn hin
    obtain ⟨q, hq, hx'⟩ := List.mem_flatMap.mp (hcut.mem_iff.mp hpm)
    obtain ⟨x, hx, rfl⟩ := List.mem_map.mp hx'
    obtain ⟨-, -, ht⟩ := hall q hq
    have hxa := align_nextLine (files q.1.file) x.2 (hle _ _ _ ht x hx)
    have : n = align (files q.1.file) x.2 := nextLine_unique _ _ _ _ hn hxa
    subst this
    obtain ⟨y, hy, hy1, hy2, hy3, hy4⟩ := exists_crossing _ q.2 0 ht (hzero _) ⟨x, hx, hin⟩
    obtain ⟨row, hrow, hodd⟩ := crossing_row _ _ _ hy1 hy2 hy3 hy4
    have hin : row ∈ fileRows files groups := by
      refine h.mem_iff.mp (hperm.mem_iff.mpr (hread.mem_iff.mpr ?_))
      exact List.mem_flatMap.mpr ⟨q, hq, List.mem_flatMap.mpr ⟨y, hy, hrow⟩⟩
    obtain ⟨g, hg, hrow⟩ := List.mem_flatMap.mp hin
    have := rowsFrom_even (files g.file) false [] (by simp [quotes])
      (by have h := hw g hg; unfold WellFormed at h; have h0 : quotes [] = 0 := rfl; rwa [h0, Nat.zero_add])
      row hrow
    rw [← Nat.not_odd_iff_even] at this
    exact this hodd
  · intro h
    refine hperm.trans (hread.trans (List.Perm.of_eq ?_))
    rw [hwhole]
    refine List.flatMap_congr fun p hpp => ?_
    obtain ⟨-, -, ht⟩ := hall p hpp
    rw [read_tiles _ p.2 0 (Nat.zero_le _) ht (hzero _) fun x hx =>
      h _ (hmem p hpp x hx) _ (align_nextLine _ _ (hle _ _ _ ht x hx))]
    simp [align]

/-- **C96**, files with one line per row: for every way of cutting them and every number of tasks, the tasks
together return the rows of the files. -/
theorem C96_one_line_per_row_partial (files : Nat → List Char)
    (cut : Nat → Option (List (List Piece))) (groups r : List (List Piece)) (partitionCount tasks : Nat)
    (d : Leaf.DistLeaf (List Char)) (hT : 0 < tasks)
    (hc : cut (partitionCount * tasks) = some r) (hr : CutInto (fun i => (files i).length) groups r)
    (hw : ∀ p ∈ groups.flatten, WellFormed (files p.file) ∧ OneLinePerRow (files p.file))
    (hd : scan files false cut groups partitionCount tasks = .ok d) :
    d.variants.flatten.flatten.Perm (fileRows files groups) := by
  refine (C96_exactly_when_no_value_is_cut_partial files cut groups r partitionCount tasks d hT hc hr
    (fun p hp => (hw p hp).1) hd).mpr ?_
  intro p hpm n hn hin
  obtain ⟨parts, hp, hall, hcut⟩ := hr
  obtain ⟨q, hq, hx⟩ := List.mem_flatMap.mp (hcut.mem_iff.mp hpm)
  obtain ⟨x, hx, rfl⟩ := List.mem_map.mp hx
  have hg : q.1 ∈ groups.flatten := by rw [← hp]; exact List.mem_map.mpr ⟨q, hq, rfl⟩
  obtain ⟨hwf, hone⟩ := hw q.1 hg
  rcases hn.2.1 with h0 | hs | ⟨h0, hl⟩
  · subst h0; simp [InsideValue, quotes] at hin
  · subst hs
    unfold InsideValue at hin
    rw [List.take_length, ← Nat.not_even_iff_odd] at hin
    exact hin hwf
  · refine hone (n - 1) hl ?_
    unfold InsideValue at hin ⊢
    have hb : n - 1 < (files q.1.file).length := (List.getElem?_eq_some_iff.mp hl).1
    have h1 : (files q.1.file).take n = (files q.1.file).take (n - 1) ++ ['\n'] := by
      have := List.take_add_one (l := files q.1.file) (i := n - 1)
      rw [hl, Nat.sub_add_cancel h0] at this
      simpa using this
    rw [h1, quotes_append] at hin
    simpa [quotes] using hin

/-- **C96**, scans that are not cut: whatever the files contain, a scan whose files the partitioner leaves alone
returns the rows of the files. -/
theorem C96_uncut_partial (files : Nat → List Char) (cut : Nat → Option (List (List Piece)))
    (groups : List (List Piece)) (partitionCount tasks : Nat) (d : Leaf.DistLeaf (List Char)) (hT : 0 < tasks)
    (hg : ∀ p ∈ groups.flatten, p.lo = 0 ∧ p.hi = (files p.file).length)
    (hc : cut (partitionCount * tasks) = none ∨ cut (partitionCount * tasks) = some groups)
    (hd : scan files false cut groups partitionCount tasks = .ok d) :
    d.variants.flatten.flatten.Perm (fileRows files groups) := by
  refine (scan_rows files cut groups groups partitionCount tasks d hT
    (by rcases hc with h | h <;> rw [h] <;> rfl) hd).trans (List.Perm.of_eq ?_)
  unfold fileRows
  refine List.flatMap_congr fun p hp => ?_
  obtain ⟨h0, h1⟩ := hg p hp
  have h2 : align (files p.file) (files p.file).length = (files p.file).length :=
    Nat.le_antisymm (align_le _ _) (align_nextLine _ _ (le_refl _)).1
  unfold readPiece readRange
  rw [h0, h1, h2]
  simp [align]

/-- **C96**, scans with a declared partitioning: their files are dealt out whole, so whatever the files contain and for
every number of tasks, the tasks together return the rows of the files. -/
theorem C96_declared_partial (files : Nat → List Char) (cut : Nat → Option (List (List Piece)))
    (groups : List (List Piece)) (partitionCount tasks : Nat) (d : Leaf.DistLeaf (List Char)) (hT : 0 < tasks)
    (hp : groups.flatten ≠ [] → 0 < partitionCount)
    (hg : ∀ p ∈ groups.flatten, p.lo = 0 ∧ p.hi = (files p.file).length)
    (hd : scan files true cut groups partitionCount tasks = .ok d) :
    d.variants.flatten.flatten.Perm (fileRows files groups) := by
  have hcut : scan files true (fun _ => none) groups partitionCount tasks = .ok d := hd
  obtain ⟨s, s1, -, s3, -⟩ := Leaf.C17_every_file_once (readPiece files) true (fun _ => none) groups partitionCount
    tasks hT (fun _ => hp) (by intro t r h; cases h)
  unfold scan Leaf.scaleUp at hcut
  rw [s1] at hcut
  have hv : d.variants = s.map fun x => x.map (·.flatMap (readPiece files)) := by
    change Leaf.DistLeaf.tryNew _ _ = _ at hcut
    unfold Leaf.DistLeaf.tryNew at hcut
    split at hcut
    · simp at hcut
    · rename_i v vs hvs
      split at hcut
      · simp only [Except.ok.injEq] at hcut
        rw [← hcut]; exact hvs.symm
      · simp at hcut
  have hflat : (s.map fun x => x.map (·.flatMap (readPiece files))).flatten.flatten
      = s.flatten.flatten.flatMap (readPiece files) := by
    rw [← List.map_flatten]
    generalize s.flatten = l
    induction l with
    | nil => rfl
    | cons x xs ih => simp [List.flatMap_append] at ih ⊢; rw [ih]
  rw [hv, hflat]
  refine s3.trans (List.Perm.of_eq ?_)
  unfold fileRows
  refine List.flatMap_congr fun p hpm => ?_
  obtain ⟨h0, h1⟩ := hg p hpm
  have h2 : align (files p.file) (files p.file).length = (files p.file).length :=
    Nat.le_antisymm (align_le _ _) (align_nextLine _ _ (le_refl _)).1
  unfold readPiece readRange
  rw [h0, h1, h2]
  simp [align]

/-- Non-vacuity of `C96_declared_partial`: two files with line breaks in values, on two tasks. -/
example : (scan (fun _ => "1,\"a\nb\"\n".toList) true (fun _ => none) [[⟨0, 0, 8⟩], [⟨1, 0, 8⟩]] 2 2).toOption.map
      (·.variants) = some [[["1,\"a\nb\"".toList], []], [["1,\"a\nb\"".toList], []]] := by decide +kernel

/-- Non-vacuity of `C96_uncut_partial`: a file with a line break in a value, in one group, on one task. -/
example : (scan (fun _ => "1,\"a\nb\"\n".toList) false (fun _ => none) [[⟨0, 0, 8⟩]] 1 1).toOption.map (·.variants)
    = some [[["1,\"a\nb\"".toList]]] := by decide +kernel

/-- Ranges that follow each other read every block that begins in them once. -/
theorem blocks_tiles {α : Type} (bs : Blocks α) (size : Nat) (ps : List (Nat × Nat)) : ∀ lo, lo ≤ size →
    Tiles size lo ps →
    (ps.flatMap fun p => readBlocks bs p.1 p.2).Perm (readBlocks bs lo size) := by
  induction ps with
  | nil =>
    intro lo hlo ht
    have ht : lo = size := ht
    have : bs.filter (fun b => decide (lo ≤ b.1 ∧ b.1 < size)) = [] := by
      rw [List.filter_eq_nil_iff]
      intro b _
      simp only [decide_eq_true_eq]
      omega
    unfold readBlocks
    rw [this]
    exact List.Perm.refl _
  | cons p ps ih =>
    intro lo hlo ht
    obtain ⟨a, b⟩ := p
    obtain ⟨rfl, hab, hb, ht⟩ := ht
    rw [List.flatMap_cons]
    refine ((ih b hb ht).append_left _).trans ?_
    unfold readBlocks
    rw [← List.flatMap_append]
    refine List.Perm.flatMap_right _ ?_
    have h1 : bs.filter (fun x => decide (a ≤ x.1 ∧ x.1 < b))
        = (bs.filter fun x => decide (a ≤ x.1 ∧ x.1 < size)).filter fun x => decide (x.1 < b) := by
      rw [List.filter_filter]
      refine List.filter_congr fun x _ => ?_
      rw [← Bool.decide_and]
      exact decide_eq_decide.mpr (by omega)
    have h2 : bs.filter (fun x => decide (b ≤ x.1 ∧ x.1 < size))
        = (bs.filter fun x => decide (a ≤ x.1 ∧ x.1 < size)).filter fun x => !decide (x.1 < b) := by
      rw [List.filter_filter]
      refine List.filter_congr fun x _ => ?_
      rw [← decide_not, ← Bool.decide_and]
      exact decide_eq_decide.mpr (by omega)
    rw [h1, h2]
    exact List.filter_append_perm _ _

/-- **C96**, files made of blocks, such as Parquet files: for every way of cutting them and every number of tasks, the
tasks together return the rows of all blocks. -/
theorem C96_blocks_partial {α : Type} (files : Nat → Blocks α) (size : Nat → Nat)
    (hsize : ∀ i, ∀ b ∈ files i, b.1 < size i)
    (cut : Nat → Option (List (List Piece))) (groups r : List (List Piece)) (partitionCount tasks : Nat)
    (d : Leaf.DistLeaf α) (hT : 0 < tasks)
    (hc : cut (partitionCount * tasks) = some r) (hr : CutInto size groups r)
    (hd : scanBlocks files false cut groups partitionCount tasks = .ok d) :
    d.variants.flatten.flatten.Perm (groups.flatten.flatMap fun p => (files p.file).flatMap (·.2)) := by
  refine (scaleUp_rows _ cut groups r partitionCount tasks d hT (by rw [hc]; rfl) hd).trans ?_
  obtain ⟨parts, hp, hall, hcut⟩ := hr
  refine (hcut.flatMap_right _).trans ?_
  rw [List.flatMap_assoc, ← hp, List.flatMap_map]
  refine List.Perm.flatMap_left _ fun p hpp => ?_
  obtain ⟨-, -, ht⟩ := hall p hpp
  rw [List.flatMap_map]
  refine (blocks_tiles (files p.1.file) _ p.2 0 (Nat.zero_le _) ht).trans (List.Perm.of_eq ?_)
  unfold readBlocks
  rw [List.filter_eq_self.mpr]
  intro b hb
  have := hsize _ b hb
  simp only [decide_eq_true_eq]
  omega

/-- Non-vacuity of `C96_blocks_partial`: a file of two blocks cut in the middle of its first one. -/
example : (scanBlocks (fun _ => [(4, ["a", "b"]), (40, ["c"])]) false (fun _ => some [[⟨0, 0, 25⟩], [⟨0, 25, 50⟩]])
      [[⟨0, 0, 50⟩]] 1 2).toOption.map (·.variants) = some [[["a", "b"]], [["c"]]]
    ∧ CutInto (fun _ => 50) [[⟨0, 0, 50⟩]] [[⟨0, 0, 25⟩], [⟨0, 25, 50⟩]] := by
  refine ⟨by decide +kernel, [(⟨0, 0, 50⟩, [(0, 25), (25, 50)])], rfl, ?_, List.Perm.refl _⟩
  intro p hp
  simp only [List.mem_singleton] at hp
  subst hp
  exact ⟨rfl, rfl, rfl, by decide, by decide, rfl, by decide, by decide, rfl⟩

/-- A file of two rows, the second with a line break in a quoted value. -/
def twoRows : List Char := "1,c\n2,\"a\nb\"\n".toList

/-- Finding (**C96** does not hold for all files): a file of two rows, the second of which has a line break in a
quoted value, read by two tasks in two halves. The tasks return three rows, two of them broken, and no
error. -/
theorem C96_false :
    CutInto (fun _ => twoRows.length) [[⟨0, 0, 12⟩]] [[⟨0, 0, 6⟩], [⟨0, 6, 12⟩]]
    ∧ WellFormed twoRows
    ∧ (scan (fun _ => twoRows) false (fun _ => some [[⟨0, 0, 6⟩], [⟨0, 6, 12⟩]]) [[⟨0, 0, 12⟩]] 1 2).toOption.map
        (fun d => d.variants) = some [[["1,c".toList, "2,\"a\n".toList]], [["b\"\n".toList]]]
    ∧ rows twoRows = ["1,c".toList, "2,\"a\nb\"".toList] := by
  refine ⟨⟨[(⟨0, 0, 12⟩, [(0, 6), (6, 12)])], rfl, ?_, List.Perm.refl _⟩, ?_, by decide +kernel,
    by decide +kernel⟩
  · intro p hp
    simp only [List.mem_singleton] at hp
    subst hp
    exact ⟨rfl, rfl, rfl, by decide, by decide, rfl, by decide, by decide, rfl⟩
  · exact ⟨1, rfl⟩

/-- Non-vacuity of `C96_one_line_per_row_partial`: a file of three rows, one with a quoted value, cut in the middle of
its second row and read by two tasks. -/
example : ∃ d, scan (fun _ => "1,a\n2,\"b\"\n3,c\n".toList) false (fun _ => some [[⟨0, 0, 7⟩], [⟨0, 7, 14⟩]])
      [[⟨0, 0, 14⟩]] 1 2 = .ok d
    ∧ d.variants = [[["1,a".toList, "2,\"b\"".toList]], [["3,c".toList]]]
    ∧ CutInto (fun _ => "1,a\n2,\"b\"\n3,c\n".toList.length) [[⟨0, 0, 14⟩]] [[⟨0, 0, 7⟩], [⟨0, 7, 14⟩]]
    ∧ WellFormed "1,a\n2,\"b\"\n3,c\n".toList ∧ OneLinePerRow "1,a\n2,\"b\"\n3,c\n".toList := by
  refine ⟨⟨[["1,a".toList, "2,\"b\"".toList, "3,c".toList]], 1,
      [[["1,a".toList, "2,\"b\"".toList]], [["3,c".toList]]]⟩, rfl, rfl,
    ⟨[(⟨0, 0, 14⟩, [(0, 7), (7, 14)])], rfl, ?_, List.Perm.refl _⟩, ⟨1, rfl⟩, ?_⟩
  · intro p hp
    simp only [List.mem_singleton] at hp
    subst hp
    exact ⟨rfl, rfl, rfl, by decide, by decide, rfl, by decide, by decide, rfl⟩
  · intro n hn
    have hb : n < 14 := (List.getElem?_eq_some_iff.mp hn).1
    unfold InsideValue
    rw [Nat.not_odd_iff_even, Nat.even_iff]
    revert hn
    revert hb
    revert n
    decide +kernel

end DD.Ranges
