/-
**C93**: filters that sorts with a limit learn while they run.
-/
import Verif.Spec.LearnedTop
import Verif.Props.Learned

namespace DD.Learned

open InProcess

variable {Row Url K : Type} [LinearOrder K]

theorem take_insert (d : K) : ∀ (k : Nat) (L : List K), L.Pairwise (· ≤ ·) → k ≤ L.countP (· ≤ d) →
    (L.orderedInsert (· ≤ ·) d).take k = L.take k
  | 0, _, _, _ => by simp
  | k + 1, [], _, h => by simp at h
  | k + 1, b :: L, hs, h => by
    have hs' := List.pairwise_cons.1 hs
    by_cases hdb : d ≤ b
    · have hbd : b ≤ d := by
        by_contra hn
        have : (b :: L).countP (· ≤ d) = 0 := by
          rw [List.countP_eq_zero]
          intro x hx
          rcases List.mem_cons.1 hx with rfl | hx
          · simpa using hn
          · have := hs'.1 x hx
            simp only [decide_eq_true_eq]
            exact fun hxd => hn (le_trans this hxd)
        omega
      have he : b = d := le_antisymm hbd hdb
      subst he
      have hk : k ≤ L.countP (· ≤ b) := by
        rw [List.countP_cons] at h
        simp at h
        omega
      have ih := take_insert b k L hs'.2 hk
      have hins : L.orderedInsert (· ≤ ·) b = b :: L := by
        cases L with
        | nil => rfl
        | cons c L => exact List.orderedInsert_cons_of_le _ L (hs'.1 c (by simp))
      rw [hins] at ih
      rw [List.orderedInsert_cons_of_le _ L hdb, List.take_succ_cons, List.take_succ_cons, ih]
    · have hlt : b ≤ d := le_of_lt (lt_of_not_ge hdb)
      have hk : k ≤ L.countP (· ≤ d) := by
        rw [List.countP_cons] at h
        simp [hlt] at h
        exact h
      rw [List.orderedInsert_of_not_le _ L hdb, List.take_succ_cons, List.take_succ_cons, take_insert d k L hs'.2 hk]

theorem top_perm {k : Nat} {a b : List K} (h : a.Perm b) : top k a = top k b := by
  unfold top
  have : a.insertionSort (· ≤ ·) = b.insertionSort (· ≤ ·) :=
    List.Perm.eq_of_pairwise' (List.pairwise_insertionSort _ _) (List.pairwise_insertionSort _ _)
      (((List.perm_insertionSort _ a).trans h).trans (List.perm_insertionSort _ b).symm)
  rw [this]

/-- Leaving out keys for which `k` others that are no worse remain does not change the best `k`. -/
theorem top_drop (k : Nat) (A : List K) : ∀ (D : List K), (∀ d ∈ D, k ≤ A.countP (· ≤ d)) → top k (D ++ A) = top k A
  | [], _ => rfl
  | d :: D, h => by
    have ih := top_drop k A D fun x hx => h x (by simp [hx])
    rw [← ih]
    unfold top
    rw [List.cons_append, List.insertionSort_cons]
    apply take_insert _ _ _ (List.pairwise_insertionSort _ _)
    rw [(List.perm_insertionSort _ (D ++ A)).countP_eq, List.countP_append]
    have := h d (by simp)
    omega

theorem le_of_top {k : Nat} {l : List K} {v : K} (hk : 0 < k) (h : (top k l)[k - 1]? = some v) : k ≤ l.countP (· ≤ v) := by
  obtain ⟨hlt, hv⟩ := List.getElem?_eq_some_iff.1 h
  have hlen : (top k l).length = k := by
    have : (top k l).length ≤ k := by unfold top; exact List.length_take_le _ _
    omega
  have hall : ∀ x ∈ top k l, x ≤ v := by
    intro x hx
    obtain ⟨n, hn, rfl⟩ := List.getElem_of_mem hx
    have hp : (top k l).Pairwise (· ≤ ·) := (List.pairwise_insertionSort (· ≤ ·) l).sublist (List.take_sublist _ _)
    rw [← hv]
    rcases Nat.lt_or_ge n (k - 1) with hnk | hnk
    · exact List.pairwise_iff_getElem.1 hp n (k - 1) hn hlt hnk
    · have : n = k - 1 := by omega
      subst this; exact le_refl _
  calc k = (top k l).length := hlen.symm
    _ = (top k l).countP (· ≤ v) := (List.countP_eq_length.2 fun x hx => by simpa using hall x hx).symm
    _ ≤ (l.insertionSort (· ≤ ·)).countP (· ≤ v) := (List.take_sublist _ _).countP_le
    _ = l.countP (· ≤ v) := (List.perm_insertionSort _ l).countP_eq _

/-- The best `k` of the best `k` of every part are the best `k`. -/
theorem top_parts {ι : Type} (k : Nat) (L : List ι) (g : ι → List K) :
    top k (L.flatMap fun t => top k (g t)) = top k (L.flatMap g) := by
  have hperm : ((L.flatMap fun t => ((g t).insertionSort (· ≤ ·)).drop k) ++ L.flatMap fun t => top k (g t)).Perm (L.flatMap g) := by
    refine List.perm_append_comm.trans ((flatMap_append_perm _ _ _).symm.trans ?_)
    apply flatMap_perm_congr
    intro t _
    unfold top
    rw [List.take_append_drop]
    exact List.perm_insertionSort _ _
  rw [← top_perm hperm]
  refine (top_drop k _ _ ?_).symm
  intro d hd
  obtain ⟨t, ht, hd⟩ := List.mem_flatMap.1 hd
  have hsub : (top k (g t)).Sublist (L.flatMap fun t => top k (g t)) := by
    obtain ⟨a, b, rfl⟩ := List.append_of_mem ht
    rw [List.flatMap_append, List.flatMap_cons]
    exact (List.sublist_append_left _ _).trans (List.sublist_append_right _ _)
  refine Nat.le_trans ?_ hsub.countP_le
  have hlen : (top k (g t)).length = k := by
    unfold top
    rw [List.length_take]
    have : 0 < (((g t).insertionSort (· ≤ ·)).drop k).length := List.length_pos_of_mem hd
    rw [List.length_drop] at this
    omega
  rw [List.countP_eq_length.2, hlen]
  intro x hx
  have hp := List.pairwise_insertionSort (· ≤ ·) (g t)
  rw [← List.take_append_drop k ((g t).insertionSort (· ≤ ·))] at hp
  simpa using (List.pairwise_append.1 hp).2.2 x hx d hd

variable [DecidableEq Url] {q : TopQuery Row Url K}

/-- The keys that were let pass. -/
def gotKeys (q : TopQuery Row Url K) (got : List (Nat × Row)) : List K := got.map fun x => q.key x.2

/-- What every step keeps. -/
structure TopInv (q : TopQuery Row Url K) (st : TopState Row K) : Prop where
  filters : ∀ p v, st.filter p = some v → q.k ≤ (gotKeys q st.got).countP (· ≤ v)
  rows : ∃ lost : List (Nat × Row), (∀ x ∈ lost, q.k ≤ (gotKeys q st.got).countP (· ≤ q.key x.2))
    ∧ (∀ x ∈ lost ++ st.got, x.1 < q.scans) ∧ ∀ i, (gotOf (lost ++ st.got) i).Perm ((q.probe i).take (st.read i))
  reads : ∀ x ∈ st.got, x.2 ∈ q.probe x.1

theorem keysOf_sublist (got : List (Nat × Row)) (t : Nat) : (q.keysOf got t).Sublist (gotKeys q got) :=
  List.Sublist.map _ List.filter_sublist

theorem TopInv.step {st : TopState Row K} (h : TopInv q st) (hk : 0 < q.k) (s : TopStep) (hs : q.Legal s) :
    TopInv q (st.step q s) := by
  cases s with
  | sent scan t =>
    refine ⟨?_, h.rows, h.reads⟩
    intro p v hv
    simp only [TopState.step] at hv
    split at hv
    · exact h.filters _ v hv
    · exact h.filters _ v hv
  | learn t =>
    simp only [TopState.step]
    cases hv : (top q.k (q.keysOf st.got t))[q.k - 1]? with
    | none => exact h
    | some v =>
      refine ⟨?_, h.rows, h.reads⟩
      intro p w hw
      simp only at hw
      split at hw
      · cases hw
        exact Nat.le_trans (le_of_top hk hv) (keysOf_sublist st.got t).countP_le
      · exact h.filters p w hw
  | read i apply =>
    simp only [TopState.step]
    cases hr : (q.probe i)[st.read i]? with
    | none => exact h
    | some r =>
      have htake : (q.probe i).take (st.read i + 1) = (q.probe i).take (st.read i) ++ [r] := by
        rw [List.take_add_one, hr]; rfl
      obtain ⟨lost, hlost, hscans, hperm⟩ := h.rows
      have hpass : ∀ st' : TopState Row K, st'.filter = st.filter → st'.got = st.got ++ [(i, r)] →
          st'.read = (fun j => if j = i then st.read i + 1 else st.read j) → TopInv q st' := by
        intro st' h1 h2 h3
        have hmono : ∀ v, q.k ≤ (gotKeys q st.got).countP (· ≤ v) → q.k ≤ (gotKeys q st'.got).countP (· ≤ v) := by
          intro v hv
          rw [h2]
          unfold gotKeys at hv ⊢
          rw [List.map_append, List.countP_append]
          omega
        refine ⟨?_, ⟨lost, ?_, ?_, ?_⟩, ?_⟩
        · intro p v hv
          rw [h1] at hv
          exact hmono v (h.filters p v hv)
        · intro x hx
          exact hmono _ (hlost x hx)
        · rw [h2, ← List.append_assoc]
          intro x hx
          rcases List.mem_append.1 hx with hx | hx
          · exact hscans x hx
          · rw [List.mem_singleton.1 hx]; exact hs
        · intro j
          rw [h2, h3, ← List.append_assoc, gotOf_snoc]
          show List.Perm _ (List.take (if j = i then _ else _) _)
          by_cases hj : j = i
          · rw [if_pos hj, if_pos hj, hj, htake]
            exact (hperm i).append_right _
          · rw [if_neg hj, if_neg hj]; exact hperm j
        · rw [h2]
          intro x hx
          rcases List.mem_append.1 hx with hx | hx
          · exact h.reads x hx
          · rw [List.mem_singleton.1 hx]; exact List.mem_of_getElem? hr
      cases apply with
      | false => exact hpass _ rfl rfl rfl
      | true =>
        cases hf : st.filter (q.scanPlace i) with
        | none => exact hpass _ rfl rfl rfl
        | some v =>
          by_cases hlt : q.key r < v
          · refine hpass _ rfl ?_ rfl
            simp only [if_pos hlt]
          · simp only [if_neg hlt]
            refine ⟨h.filters, ⟨(i, r) :: lost, ?_, ?_, ?_⟩, h.reads⟩
            · intro x hx
              rcases List.mem_cons.1 hx with rfl | hx
              · refine Nat.le_trans (h.filters _ v hf) (List.countP_mono_left ?_)
                intro y _ hy
                simp only [decide_eq_true_eq] at hy ⊢
                exact le_trans hy (le_of_not_gt hlt)
              · exact hlost x hx
            · intro x hx
              rcases List.mem_cons.1 hx with rfl | hx
              · exact hs
              · exact hscans x hx
            · intro j
              show (gotOf ((i, r) :: (lost ++ st.got)) j).Perm (List.take (if j = i then _ else _) _)
              have hc : gotOf ((i, r) :: (lost ++ st.got)) j = if j = i then r :: gotOf (lost ++ st.got) j else gotOf (lost ++ st.got) j := by
                unfold gotOf
                by_cases hj : j = i
                · simp [hj]
                · simp [hj, Ne.symm hj]
              rw [hc]
              by_cases hj : j = i
              · rw [if_pos hj, if_pos hj, hj, htake]
                exact ((hperm i).cons r).trans (List.perm_append_singleton r _).symm
              · rw [if_neg hj, if_neg hj]; exact hperm j

theorem TopInv.run (hk : 0 < q.k) : ∀ (steps : List TopStep) {st : TopState Row K}, TopInv q st → (∀ s ∈ steps, q.Legal s) →
    TopInv q (steps.foldl (TopState.step q) st)
  | [], _, h, _ => h
  | s :: steps, _, h, hl => TopInv.run hk steps (h.step hk s (hl s (by simp))) fun x hx => hl x (by simp [hx])

theorem TopInv.start : TopInv q {} where
  filters := by intro p v h; cases h
  rows := ⟨[], (by intro x hx; cases hx), (by intro x hx; cases hx), (by intro i; exact List.Perm.refl _)⟩
  reads := by intro x hx; cases hx

/-- **C93.** `ORDER BY … LIMIT k`: whatever the tasks of the sort learn and whenever they publish it, whoever shares it, in one process
or not, and whichever rows the scans apply it to, the query returns the best `k` keys in order. -/
theorem C93_sorts_with_limits (q : TopQuery Row Url K) (hok : q.Ok) (steps : List TopStep) (hl : ∀ s ∈ steps, q.Legal s)
    (he : q.Ended steps) : q.result (topRun q steps).got = q.answer := by
  unfold TopQuery.result TopQuery.answer
  rcases Nat.eq_zero_or_pos q.k with hk | hk
  · simp [top, hk]
  have inv : TopInv q (topRun q steps) := TopInv.run hk steps TopInv.start hl
  obtain ⟨st, hst⟩ : ∃ st, st = topRun q steps := ⟨_, rfl⟩
  unfold TopQuery.Ended at he
  rw [← hst] at inv he ⊢
  obtain ⟨lost, hlost, hscans, hperm⟩ := inv.rows
  rw [top_parts]
  have h1 : ((List.range q.tasks).flatMap fun t => q.keysOf st.got t).Perm (gotKeys q st.got) := by
    have := (buckets_perm (fun x : Nat × Row => q.reach x.1 x.2) q.tasks st.got (fun x hx =>
      hok x.1 (hscans x (List.mem_append_right _ hx)) x.2 (inv.reads x hx))).map fun x => q.key x.2
    rw [List.map_flatMap] at this
    exact this
  have h2 : (lost.map (fun x => q.key x.2) ++ gotKeys q st.got).Perm (((List.range q.scans).flatMap q.probe).map q.key) := by
    have h3 : ((List.range q.scans).flatMap q.probe).Perm ((lost ++ st.got).map (·.2)) := by
      refine List.Perm.trans ?_ (gotOf_perm hscans)
      apply flatMap_perm_congr
      intro i hi
      have := hperm i
      rw [he i (List.mem_range.1 hi), List.take_length] at this
      exact this.symm
    have h4 := (h3.map q.key).symm
    rw [List.map_map, List.map_append] at h4
    exact h4
  rw [top_perm h1, ← top_perm h2, top_drop]
  intro d hd
  obtain ⟨x, hx, rfl⟩ := List.mem_map.1 hd
  exact hlost x hx

/-- Two tasks, both at the coordinator's URL, with the scans in them; the best two of five rows. -/
def Demo.best : TopQuery (Nat × Nat) Nat Nat where
  k := 2
  key := Prod.fst
  same := true
  reach := fun i _ => i
  tasks := 2
  scans := 2
  self := some 0
  sortUrls := [0, 0]
  scanUrls := []
  probe := fun i => if i = 0 then [(4, 0), (3, 1), (9, 2)] else [(8, 3), (1, 4)]

/-- Task 0 publishes after two rows, and task 1 skips its first row because of it. -/
def Demo.bestSteps : List TopStep := [.read 0 true, .read 0 true, .learn 0, .read 1 true, .read 1 true, .read 0 true]

/-- Non-vacuity: rows of both tasks are skipped, and the answer is the best two. -/
example : Demo.best.Ok ∧ (∀ s ∈ Demo.bestSteps, Demo.best.Legal s) ∧ Demo.best.Ended Demo.bestSteps
    ∧ (topRun Demo.best Demo.bestSteps).got = [(0, (4, 0)), (0, (3, 1)), (1, (1, 4))]
    ∧ Demo.best.result (topRun Demo.best Demo.bestSteps).got = [1, 3] ∧ Demo.best.answer = [1, 3] := by
  refine ⟨fun i hi r _ => hi, ?_, ?_, ?_, ?_, ?_⟩
  · intro s hs
    simp only [Demo.bestSteps, List.mem_cons, List.not_mem_nil, or_false] at hs
    rcases hs with rfl | rfl | rfl | rfl | rfl | rfl <;>
      first | trivial | exact Nat.zero_lt_two | exact Nat.one_lt_two
  all_goals (try unfold TopQuery.Ended); decide +kernel

end DD.Learned
