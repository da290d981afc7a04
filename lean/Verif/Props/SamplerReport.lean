/-
C75: what a sampled partition reports about its rows is true of the rows it peeked at.
-/
import Verif.Model.SamplerReport
import Verif.Props.Sampler
import Mathlib.Data.List.Dedup
import Mathlib.Algebra.Order.Field.Rat
import Mathlib.Tactic.FieldSimp

namespace DD.Sampler

variable {V S : Type}

/-- All rows of some batches. -/
def allRows (peek : List (Batch V)) : List (Row V) := peek.flatMap (·.rows)

/-- The values of column `c` in some rows, without the NULLs. -/
def valuesOf (conv : V → Option S) (c : Nat) (rows : List (Row V)) : List S :=
  rows.filterMap fun r => (r c).bind conv

/-- How many of some rows are NULL in column `c`. -/
def nullsOf (c : Nat) (rows : List (Row V)) : Nat := rows.countP fun r => (r c).isNone

/-! ### Lemmas -/

theorem allRows_length (peek : List (Batch V)) : (allRows peek).length = peekedRows peek := by
  simp [allRows, peekedRows, List.length_flatMap]

theorem foldl_mapIdx (f : Batch V → Nat → Nat) (peek : List (Batch V)) :
    ∀ (acc : List Nat), (peek.foldl (fun acc b => acc.mapIdx fun i x => x + f b i) acc).length
        = acc.length ∧
      ∀ c (h : c < acc.length), (peek.foldl (fun acc b => acc.mapIdx fun i x => x + f b i) acc)[c]?
        = some (acc[c] + (peek.map fun b => f b c).sum) := by
  induction peek with
  | nil => intro acc; exact ⟨rfl, fun c h => by simp [h]⟩
  | cons b bs ih =>
    intro acc
    obtain ⟨h1, h2⟩ := ih (acc.mapIdx fun i x => x + f b i)
    rw [List.length_mapIdx] at h1
    refine ⟨h1, ?_⟩
    intro c h
    rw [List.foldl_cons, h2 c (by rwa [List.length_mapIdx])]
    simp [Nat.add_assoc]

theorem ndvSet_spec [DecidableEq S] (conv : V → Option S) (c : Nat) (rows : List (Row V)) :
    (ndvSet conv c (rows.map some)).Nodup ∧
    ∀ v, v ∈ ndvSet conv c (rows.map some) ↔ v ∈ valuesOf conv c rows := by
  suffices H : ∀ (rows : List (Row V)) (set : List S), set.Nodup →
      ((rows.map some).foldl (ndvStep conv c) set).Nodup ∧
      ∀ v, v ∈ (rows.map some).foldl (ndvStep conv c) set ↔ v ∈ set ∨ v ∈ valuesOf conv c rows by
    have := H rows [] List.nodup_nil
    simpa [ndvSet] using this
  intro rows
  induction rows with
  | nil => intro set hs; exact ⟨hs, fun v => by simp [valuesOf]⟩
  | cons r rs ih =>
    intro set hs
    rw [List.map_cons, List.foldl_cons]
    cases hv : (r c).bind conv with
    | none =>
      have := ih set hs
      simp only [ndvStep, hv]
      refine ⟨this.1, fun v => ?_⟩
      rw [this.2 v]
      simp [valuesOf, hv]
    | some x =>
      have hx : (insertNew set x).Nodup := by
        unfold insertNew
        split
        · exact hs
        · rename_i h; exact List.nodup_cons.mpr ⟨h, hs⟩
      have := ih (insertNew set x) hx
      simp only [ndvStep, hv]
      refine ⟨this.1, fun v => ?_⟩
      rw [this.2 v]
      simp only [valuesOf, List.filterMap_cons, hv, List.mem_cons]
      unfold insertNew
      split
      · rename_i h
        constructor
        · rintro (h' | h') <;> simp [h']
        · rintro (h' | h' | h')
          · exact Or.inl h'
          · subst h'; exact Or.inl h
          · exact Or.inr h'
      · simp only [List.mem_cons]
        constructor
        · rintro ((h' | h') | h') <;> simp [h']
        · rintro (h' | h' | h') <;> simp [h']

/-- The set of a column has as many elements as there are different values. -/
theorem ndvSet_length [DecidableEq S] (conv : V → Option S) (c : Nat) (rows : List (Row V)) :
    (ndvSet conv c (rows.map some)).length = (valuesOf conv c rows).dedup.length := by
  obtain ⟨h1, h2⟩ := ndvSet_spec conv c rows
  refine List.Perm.length_eq ?_
  rw [List.perm_ext_iff_of_nodup h1 (List.nodup_dedup _)]
  intro v
  rw [h2 v, List.mem_dedup]

theorem takeWhile_lt (m : Nat) : ∀ (idx : List Nat), idx.Pairwise (· < ·) →
    (∀ i ∈ idx.takeWhile (· < m), i < m) ∧ (∀ i ∈ idx.dropWhile (· < m), m ≤ i)
  | [], _ => by simp
  | i :: is, h => by
    obtain ⟨h1, h2⟩ := List.pairwise_cons.mp h
    have ih := takeWhile_lt m is h2
    by_cases hi : i < m
    · simp only [List.takeWhile_cons, hi, decide_true, if_true, List.dropWhile_cons, List.mem_cons]
      refine ⟨?_, ih.2⟩
      rintro j (rfl | hj)
      · exact hi
      · exact ih.1 j hj
    · simp only [List.takeWhile_cons, hi, decide_false, Bool.false_eq_true, if_false,
        List.dropWhile_cons, List.mem_cons]
      refine ⟨by simp, ?_⟩
      rintro j (rfl | hj)
      · omega
      · have := h1 j hj; omega

/-- The loop over the batches looks at exactly the rows with the given numbers. -/
theorem visited_spec : ∀ (bs : List (Batch V)) (idx : List Nat) (base : Nat),
    idx.Pairwise (· < ·) → (∀ i ∈ idx, base ≤ i ∧ i < base + peekedRows bs) →
    visited idx base bs = idx.map fun i => (allRows bs)[i - base]?
  | [], idx, base, _, h => by
    cases idx with
    | nil => rfl
    | cons i is =>
      have := h i (List.mem_cons_self ..)
      simp [peekedRows] at this
      omega
  | b :: bs, idx, base, hs, h => by
    have hm := takeWhile_lt (base + b.rows.length) idx hs
    have hsplit : idx.takeWhile (· < base + b.rows.length) ++ idx.dropWhile (· < base + b.rows.length)
        = idx := List.takeWhile_append_dropWhile ..
    have htot : peekedRows (b :: bs) = b.rows.length + peekedRows bs := by simp [peekedRows]
    have hall : allRows (b :: bs) = b.rows ++ allRows bs := by simp [allRows]
    have hsub : ∀ i ∈ idx.dropWhile (· < base + b.rows.length), i ∈ idx :=
      fun i hi => (List.dropWhile_sublist _).subset hi
    have hsub' : ∀ i ∈ idx.takeWhile (· < base + b.rows.length), i ∈ idx :=
      fun i hi => (List.takeWhile_sublist _).subset hi
    have ih := visited_spec bs (idx.dropWhile (· < base + b.rows.length)) (base + b.rows.length)
      (hs.sublist (List.dropWhile_sublist _)) (by
        intro i hi
        have h1 := hm.2 i hi
        have h2 := h i (hsub i hi)
        omega)
    have first : (idx.takeWhile (· < base + b.rows.length)).map
        (fun i => if i < base then none else b.rows[i - base]?) =
        (idx.takeWhile (· < base + b.rows.length)).map fun i => (allRows (b :: bs))[i - base]? := by
      refine List.map_congr_left ?_
      intro i hi
      have h1 := hm.1 i hi
      have h2 := (h i (hsub' i hi)).1
      rw [if_neg (by omega), hall, List.getElem?_append_left (by omega)]
    have second : (idx.dropWhile (· < base + b.rows.length)).map
        (fun i => (allRows bs)[i - (base + b.rows.length)]?) =
        (idx.dropWhile (· < base + b.rows.length)).map fun i => (allRows (b :: bs))[i - base]? := by
      refine List.map_congr_left ?_
      intro i hi
      have h1 := hm.2 i hi
      rw [hall, List.getElem?_append_right (by omega)]
      congr 1
      omega
    rw [visited, first, ih, second]
    conv_rhs => rw [← hsplit, List.map_append]
    congr 1
    split
    · rename_i he
      rw [List.isEmpty_iff.mp he]
      rfl
    · rfl

/-- Rows with the given numbers. -/
def rowsAt (rows : List (Row V)) (idx : List Nat) : List (Row V) := idx.filterMap fun i => rows[i]?

theorem rowsAt_range (rows : List (Row V)) : rowsAt rows (List.range rows.length) = rows := by
  have h : (List.range rows.length).map (fun i => rows[i]?) = rows.map some := by
    refine List.ext_getElem (by simp) ?_
    intro i h1 h2
    simp at h1
    simp [h1]
  unfold rowsAt
  have : (List.range rows.length).filterMap (fun i => rows[i]?) =
      ((List.range rows.length).map (fun i => rows[i]?)).filterMap id := by
    rw [List.filterMap_map]; rfl
  rw [this, h, List.filterMap_map]
  simp

theorem visited_rows (peek : List (Batch V)) (idx : List Nat) (hs : idx.Pairwise (· < ·))
    (h : ∀ i ∈ idx, i < peekedRows peek) :
    visited idx 0 peek = (rowsAt (allRows peek) idx).map some := by
  rw [visited_spec peek idx 0 hs (fun i hi => ⟨Nat.zero_le _, by have := h i hi; omega⟩)]
  unfold rowsAt
  rw [← List.filterMap_eq_map, ← List.filterMap_eq_map, List.filterMap_filterMap]
  refine List.filterMap_congr ?_
  intro i hi
  have h1 := h i hi
  rw [← allRows_length] at h1
  simp [h1]

/-! ### The property -/

/-- What `rand::seq::index::sample` picks out of `total` rows, after sorting: different rows, as many as
asked for. -/
def Picks (total : Nat) (picked : List Nat) : Prop :=
  picked.Pairwise (· < ·) ∧ picked.length = ndvMaxRows ∧ ∀ i ∈ picked, i < total

/-- **C75, sizes.** The rows and bytes reported as ready are those of the peeked batches, for each column;
every vector has one entry per column. -/
theorem C75_rows_and_bytes [DecidableEq S] (conv : V → Option S) (picked : List Nat) (n : Nat)
    (peek : List (Batch V)) :
    peekedRows peek = (allRows peek).length ∧
    (∀ c < n, (perColBytes n peek)[c]? = some (peek.map fun b => b.bytes c).sum) ∧
    (perColBytes n peek).length = n ∧ (perColNdv conv picked n peek).length = n ∧
    (perColNulls n peek).length = n := by
  have hb := foldl_mapIdx (fun b i => b.bytes i) peek (List.replicate n 0)
  have hn := foldl_mapIdx (fun b i => b.nullCount i) peek (List.replicate n 0)
  refine ⟨(allRows_length peek).symm, ?_, ?_, ?_, ?_⟩
  · intro c hc
    unfold perColBytes
    rw [hb.2 c (by simpa using hc)]
    simp
  · unfold perColBytes
    rw [hb.1, List.length_replicate]
  · unfold perColNdv
    split <;> simp
  · unfold perColNulls
    split
    · simp
    · rw [List.length_map, hn.1, List.length_replicate]

/-- **C75, NULLs.** The proportion of NULLs reported for a column is that of the peeked rows, whatever
batches they came in; it lies between 0 and 1. -/
theorem C75_nulls (n : Nat) (peek : List (Batch V)) (c : Nat) (hc : c < n) (hrows : allRows peek ≠ []) :
    (perColNulls n peek)[c]? = some ((nullsOf c (allRows peek) : Rat) / ((allRows peek).length : Nat)) ∧
    nullsOf c (allRows peek) ≤ (allRows peek).length := by
  refine ⟨?_, List.countP_le_length⟩
  have hn := foldl_mapIdx (fun b i => b.nullCount i) peek (List.replicate n 0)
  have h0 : peekedRows peek ≠ 0 := by
    rw [← allRows_length]
    intro h
    exact hrows (List.length_eq_zero_iff.mp h)
  unfold perColNulls
  rw [if_neg h0, List.getElem?_map, hn.2 c (by simpa using hc), allRows_length]
  have : (peek.map fun b => b.nullCount c).sum = nullsOf c (allRows peek) := by
    unfold nullsOf allRows
    rw [List.countP_flatMap]
    congr 1
    refine List.map_congr_left ?_
    intro b _
    simp [Batch.nullCount, List.countP_eq_length_filter, Function.comp]
  simp [this]

/-- **C75, different values, few rows.** Up to a thousand rows, the proportion of different values reported
for a column is exact: the number of different values that are not NULL, over the number of rows. -/
theorem C75_ndv_exact [DecidableEq S] (conv : V → Option S) (picked : List Nat) (n : Nat)
    (peek : List (Batch V)) (c : Nat) (hc : c < n) (hrows : allRows peek ≠ [])
    (hfew : (allRows peek).length ≤ 1000) :
    (perColNdv conv picked n peek)[c]? =
      some (((valuesOf conv c (allRows peek)).dedup.length : Rat) / ((allRows peek).length : Nat)) := by
  have h0 : peekedRows peek ≠ 0 := by
    rw [← allRows_length]
    intro h
    exact hrows (List.length_eq_zero_iff.mp h)
  unfold perColNdv
  rw [if_neg h0]
  have hidx : sampledIndices (peekedRows peek) picked = List.range (peekedRows peek) := by
    unfold sampledIndices
    rw [if_pos (by rw [← allRows_length]; exact hfew)]
  simp only [hidx]
  rw [visited_rows peek _ List.pairwise_lt_range (fun i hi => List.mem_range.mp hi), ← allRows_length,
    rowsAt_range, List.getElem?_map, List.getElem?_range hc]
  simp [ndvSet_length]

/-- **C75, different values, many rows.** With more rows, the proportion reported is that of the thousand
rows picked: each index falls into the right row of the right batch, whatever the batches' sizes, and
looking there does not panic. It lies between 0 and 1. -/
theorem C75_ndv_of_picked [DecidableEq S] (conv : V → Option S) (picked : List Nat) (n : Nat)
    (peek : List (Batch V)) (c : Nat) (hc : c < n) (hmany : 1000 < (allRows peek).length)
    (hp : Picks (allRows peek).length picked) :
    (perColNdv conv picked n peek)[c]? =
      some (((valuesOf conv c (rowsAt (allRows peek) picked)).dedup.length : Rat) / (1000 : Nat)) ∧
    (rowsAt (allRows peek) picked).length = 1000 ∧
    none ∉ visited picked 0 peek ∧
    (valuesOf conv c (rowsAt (allRows peek) picked)).dedup.length ≤ 1000 := by
  obtain ⟨h1, h2, h3⟩ := hp
  have hv := visited_rows peek picked h1 (by rw [← allRows_length]; exact h3)
  have hlen : (rowsAt (allRows peek) picked).length = 1000 := by
    have := congrArg List.length hv
    rw [visited_spec peek picked 0 h1 (fun i hi => ⟨Nat.zero_le _, by
      have := h3 i hi; rw [allRows_length] at this; omega⟩)] at this
    simp only [List.length_map] at this
    rw [← this, h2]; rfl
  refine ⟨?_, hlen, ?_, ?_⟩
  · unfold perColNdv
    rw [if_neg (by rw [← allRows_length]; omega)]
    have hidx : sampledIndices (peekedRows peek) picked = picked := by
      unfold sampledIndices
      rw [if_neg (by rw [← allRows_length]; unfold ndvMaxRows; omega)]
    simp only [hidx]
    rw [hv, List.getElem?_map, List.getElem?_range hc]
    simp [ndvSet_length, h2, ndvMaxRows]
  · rw [hv]
    simp
  · calc (valuesOf conv c (rowsAt (allRows peek) picked)).dedup.length
        ≤ (valuesOf conv c (rowsAt (allRows peek) picked)).length :=
          (List.dedup_sublist _).length_le
      _ ≤ (rowsAt (allRows peek) picked).length := List.length_filterMap_le ..
      _ = 1000 := hlen

/-- The batches of a partition's stream. -/
def batchesOf (polls : List (Poll (Batch V))) : List (Batch V) :=
  (items polls).filterMap fun x => match x with | .ok b => some b | .error _ => none

/-- **C75, a final report.** If the report says that the end was reached, rows, bytes and NULLs are those of
the whole partition, and so are the different values if it has at most a thousand rows. -/
theorem C75_final_report [DecidableEq S] (conv : V → Option S) (picked : List Nat) (n cap : Nat)
    (leaves : List Nat) (partitions : Nat) (polls : List (Poll (Batch V)))
    (heos : (reportOf conv picked n cap leaves partitions polls).reachedEos = true) :
    (reportOf conv picked n cap leaves partitions polls).rowsReady =
      (allRows (batchesOf polls)).length ∧
    ∀ c < n,
      (reportOf conv picked n cap leaves partitions polls).bytesReady[c]? =
        some ((batchesOf polls).map fun b => b.bytes c).sum ∧
      (allRows (batchesOf polls) ≠ [] →
        (reportOf conv picked n cap leaves partitions polls).nulls[c]? =
          some ((nullsOf c (allRows (batchesOf polls)) : Rat) /
            ((allRows (batchesOf polls)).length : Nat)) ∧
        ((allRows (batchesOf polls)).length ≤ 1000 →
          (reportOf conv picked n cap leaves partitions polls).ndv[c]? =
            some (((valuesOf conv c (allRows (batchesOf polls))).dedup.length : Rat) /
              ((allRows (batchesOf polls)).length : Nat)))) := by
  have hi := readyChunk_items cap polls []
  simp only [List.reverse_nil, List.nil_append] at hi
  unfold reportOf at heos ⊢
  cases hp : peekAll (readyChunk cap [] polls).chunk with
  | error e =>
    simp only [hp, zeroReport] at heos
    cases heos
  | ok peek =>
    simp only [hp] at heos ⊢
    have hrest : items (readyChunk cap [] polls).rest = [] := by
      rw [Bool.or_eq_true] at heos
      rcases heos with h | h
      · have hnil := List.isEmpty_iff.mp h
        have := (readyChunk_empty cap polls [] hnil).2
        rw [this, hnil] at hi
        simpa using hi
      · rw [readyChunk_terminated cap polls [] h]
        rfl
    have hpeek : batchesOf polls = peek := by
      unfold batchesOf
      rw [← hi, hrest, peekAll_ok _ _ hp, List.append_nil, List.filterMap_map]
      simp [Function.comp_def]
    rw [hpeek]
    obtain ⟨h1, h2, -⟩ := C75_rows_and_bytes conv picked n peek
    refine ⟨h1, fun c hc => ⟨h2 c hc, fun hne => ⟨(C75_nulls n peek c hc hne).1, fun hf => ?_⟩⟩⟩
    exact C75_ndv_exact conv picked n peek c hc hne hf

/-- **C51** (rows and bytes) Whether final or not, and whether the partition fails or not, a report never claims more rows than
the partition produces, nor more bytes of any column. -/
theorem C51_never_overstated [DecidableEq S] (conv : V → Option S) (picked : List Nat) (n cap : Nat)
    (leaves : List Nat) (partitions : Nat) (polls : List (Poll (Batch V))) :
    (reportOf conv picked n cap leaves partitions polls).rowsReady ≤ (allRows (batchesOf polls)).length ∧
    ∀ c < n, ∃ bytes, (reportOf conv picked n cap leaves partitions polls).bytesReady[c]? = some bytes ∧
      bytes ≤ ((batchesOf polls).map fun b => b.bytes c).sum := by
  have hi := readyChunk_items cap polls []
  simp only [List.reverse_nil, List.nil_append] at hi
  unfold reportOf
  cases hp : peekAll (readyChunk cap [] polls).chunk with
  | error e =>
    simp only [hp, zeroReport]
    exact ⟨Nat.zero_le _, fun c hc => ⟨0, by simp [hc], Nat.zero_le _⟩⟩
  | ok peek =>
    simp only [hp]
    obtain ⟨rest, hpeek⟩ : ∃ rest, batchesOf polls = peek ++ rest := by
      unfold batchesOf
      rw [← hi, peekAll_ok _ _ hp, List.filterMap_append, List.filterMap_map]
      exact ⟨_, by simp [Function.comp_def]; rfl⟩
    obtain ⟨h1, h2, -⟩ := C75_rows_and_bytes conv picked n peek
    rw [hpeek, h1]
    refine ⟨by simp [allRows], fun c hc => ⟨_, h2 c hc, by simp⟩⟩

/-- **C75, a failed partition.** A partition that fails among the peeked batches reports zeros for every
column, not the batches before the failure, and never that its end was reached. -/
theorem C75_failed_partition [DecidableEq S] (conv : V → Option S) (picked : List Nat) (n cap : Nat)
    (leaves : List Nat) (partitions : Nat) (polls : List (Poll (Batch V)))
    (h : ∃ e, Except.error e ∈ (readyChunk cap [] polls).chunk) :
    reportOf conv picked n cap leaves partitions polls =
      { rowsReady := 0, bytesReady := List.replicate n 0, ndv := List.replicate n 0,
        nulls := List.replicate n 0, rowsPulled := rowsPulled leaves partitions,
        reachedEos := false } := by
  obtain ⟨e, he⟩ := h
  obtain ⟨e', he'⟩ := peekAll_eq_error_of_mem _ e he
  simp only [reportOf, he', zeroReport]

/-! ### The estimate of different values is only an estimate -/

/-- One batch of `1000 * k` rows whose only column repeats the values 0 to 999. -/
def repeating (k : Nat) : Batch Nat where
  rows := (List.range (1000 * k)).map fun i _ => some (i % 1000)
  bytes := fun _ => 8000 * k

theorem valuesOf_repeating (l : List Nat) :
    valuesOf some 0 (l.map fun i (_ : Nat) => some (i % 1000)) = l.map (· % 1000) := by
  unfold valuesOf
  rw [List.filterMap_map, ← List.filterMap_eq_map]
  rfl

/-- **Finding (by design of the estimate).** The proportion found in a thousand rows is reported as that of
all rows: for every `k` there are rows of which only one in `k` is a different value, and a choice of
rows for which the report says that all values are different. -/
theorem C75_ndv_overestimate_false (k : Nat) (hk : 2 ≤ k) : ∃ picked : List Nat,
    Picks (allRows [repeating k]).length picked ∧
    perColNdv (some : Nat → Option Nat) picked 1 [repeating k] = [1] ∧
    (allRows [repeating k]).length = 1000 * k ∧
    (valuesOf some 0 (allRows [repeating k])).dedup.length = 1000 := by
  have hall : allRows [repeating k] = (List.range (1000 * k)).map fun i (_ : Nat) => some (i % 1000) := by
    simp [allRows, repeating]
  have hlen : (allRows [repeating k]).length = 1000 * k := by rw [hall]; simp
  have hpick : Picks (allRows [repeating k]).length (List.range 1000) := by
    refine ⟨List.pairwise_lt_range, by simp [ndvMaxRows], ?_⟩
    intro i hi
    rw [hlen]
    have := List.mem_range.mp hi
    omega
  have hmany : 1000 < (allRows [repeating k]).length := by rw [hlen]; omega
  have hrows : rowsAt (allRows [repeating k]) (List.range 1000) =
      (List.range 1000).map fun i (_ : Nat) => some (i % 1000) := by
    unfold rowsAt
    rw [← List.filterMap_eq_map]
    refine List.filterMap_congr ?_
    intro i hi
    have := List.mem_range.mp hi
    rw [hall, List.getElem?_map, List.getElem?_range (by omega)]
    rfl
  have hnodup : ((List.range 1000).map (· % 1000)).Nodup := by
    have : (List.range 1000).map (· % 1000) = List.range 1000 := by
      conv_rhs => rw [← List.map_id (List.range 1000)]
      refine List.map_congr_left ?_
      intro i hi
      have := List.mem_range.mp hi
      exact Nat.mod_eq_of_lt this
    rw [this]
    exact List.nodup_range
  refine ⟨List.range 1000, hpick, ?_, hlen, ?_⟩
  · have h1 := (C75_ndv_of_picked (some : Nat → Option Nat) (List.range 1000) 1 [repeating k] 0
      (by omega) hmany hpick).1
    have hl := (C75_rows_and_bytes (some : Nat → Option Nat) (List.range 1000) 1 [repeating k]).2.2.2.1
    rw [hrows, valuesOf_repeating, List.Nodup.dedup hnodup] at h1
    match hx : perColNdv (some : Nat → Option Nat) (List.range 1000) 1 [repeating k], hl with
    | [x], _ =>
      rw [hx] at h1
      simp only [List.getElem?_cons_zero, Option.some.injEq, List.length_map, List.length_range] at h1
      rw [h1]
      norm_num
  · rw [hall, valuesOf_repeating]
    have : ((List.range (1000 * k)).map (· % 1000)).dedup.Perm (List.range 1000) := by
      rw [List.perm_ext_iff_of_nodup (List.nodup_dedup _) List.nodup_range]
      intro v
      simp only [List.mem_dedup, List.mem_map, List.mem_range]
      constructor
      · rintro ⟨i, -, rfl⟩
        exact Nat.mod_lt _ (by omega)
      · intro hv
        exact ⟨v, by omega, Nat.mod_eq_of_lt hv⟩
    rw [this.length_eq, List.length_range]

/-! ### Memory -/

/-- **C75, memory.** After any pushes and any number of pops, the bytes reserved in the memory pool are
those of the batches still held; once all are handed on, nothing stays reserved. -/
theorem C75_memory (n : Nat) (pushes : List (Batch V)) (pops : Nat) :
    let h := (fun h : Held V => (h.pop n).1)^[pops] (pushes.foldl (Held.push n) ⟨[], 0⟩)
    h.batches = pushes.drop pops ∧ h.reserved = (h.batches.map (Batch.size n)).sum ∧
      (pushes.length ≤ pops → h.reserved = 0) := by
  have hpush : ∀ (l : List (Batch V)) (h : Held V), h.reserved = (h.batches.map (Batch.size n)).sum →
      (l.foldl (Held.push n) h).batches = h.batches ++ l ∧
      (l.foldl (Held.push n) h).reserved =
        ((l.foldl (Held.push n) h).batches.map (Batch.size n)).sum := by
    intro l
    induction l with
    | nil => intro h hr; exact ⟨by simp, hr⟩
    | cons b bs ih =>
      intro h hr
      have := ih (h.push n b) (by simp [Held.push, hr])
      refine ⟨?_, this.2⟩
      rw [List.foldl_cons, this.1]
      simp [Held.push]
  have hpop : ∀ (k : Nat) (h : Held V), h.reserved = (h.batches.map (Batch.size n)).sum →
      ((fun h : Held V => (h.pop n).1)^[k] h).batches = h.batches.drop k ∧
      ((fun h : Held V => (h.pop n).1)^[k] h).reserved =
        (((fun h : Held V => (h.pop n).1)^[k] h).batches.map (Batch.size n)).sum := by
    intro k
    induction k with
    | zero => intro h hr; exact ⟨rfl, hr⟩
    | succ k ih =>
      intro h hr
      rw [Function.iterate_succ_apply]
      cases hb : h.batches with
      | nil =>
        have hp : (h.pop n).1 = h := by simp [Held.pop, hb]
        rw [hp]
        have := ih h hr
        rw [hb] at this
        simpa using this
      | cons b bs =>
        have hp : (h.pop n).1 = { batches := bs, reserved := h.reserved - b.size n } := by
          simp [Held.pop, hb]
        have := ih (h.pop n).1 (by rw [hp, hr, hb]; simp)
        refine ⟨?_, this.2⟩
        rw [this.1, hp]
        rfl
  have h1 := hpush pushes ⟨[], 0⟩ rfl
  have h2 := hpop pops _ h1.2
  refine ⟨?_, h2.2, ?_⟩
  · rw [h2.1, h1.1]; rfl
  · intro hl
    rw [h2.2, h2.1, h1.1, List.drop_eq_nil_of_le (by simpa using hl)]
    rfl

/-! ### A concrete partition -/

/-- Two batches with an empty one between them; column 0 holds 7, NULL, 7 and 8, column 1 only NULLs. -/
def exBatches : List (Batch Nat) :=
  [{ rows := [fun c => if c = 0 then some 7 else none, fun _ => none], bytes := fun c => 16 + c },
    { rows := [], bytes := fun _ => 0 },
    { rows := [fun c => if c = 0 then some 7 else none, fun c => if c = 0 then some 8 else none],
      bytes := fun c => 32 + c }]

/-- Non-vacuity: the partition waits, yields its batches and ends. -/
example :
    let r := reportOf (some : Nat → Option Nat) [] 2 100 [10, 5] 4
      (.pending :: exBatches.map fun b => .item (.ok b))
    r.reachedEos = true ∧ r.rowsReady = 4 ∧ r.bytesReady = [48, 50] ∧ r.nulls = [1 / 4, 1] ∧
      r.ndv = [1 / 2, 0] ∧ r.rowsPulled = 3 := by
  decide +kernel

/-- A report in the middle of a partition. -/
example :
    let r := reportOf (some : Nat → Option Nat) [] 2 100 [] 4
      ((exBatches.map fun b => .item (.ok b)) ++ [.pending] ++ exBatches.map fun b => .item (.ok b))
    r.reachedEos = false ∧ r.rowsReady = 4 := by
  decide +kernel

end DD.Sampler
