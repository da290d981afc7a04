import Verif.Model.Percentile
import Mathlib.Data.List.Sort
import Mathlib.Data.List.Perm.Basic
import Mathlib.Tactic.Linarith
/-
Percentile latencies do not depend on how the tasks are aggregated (C45).
-/
namespace DD.Percentile

theorem le_top : ∀ {ks : List Int} {k}, k ∈ ks → k ≤ top ks := by
  intro ks
  induction ks with
  | nil => intro k h; cases h
  | cons x xs ih =>
    intro k h
    cases xs with
    | nil => simp at h; subst h; exact le_refl _
    | cons y ys =>
      rw [top]
      · rcases List.mem_cons.mp h with rfl | h
        · exact le_max_left _ _
        · exact le_trans (ih h) (le_max_right _ _)
      · simp

theorem top_mem : ∀ {ks : List Int}, ks ≠ [] → top ks ∈ ks := by
  intro ks
  induction ks with
  | nil => intro h; exact absurd rfl h
  | cons x xs ih =>
    intro _
    cases xs with
    | nil => simp [top]
    | cons y ys =>
      rw [top]
      · rcases max_choice x (top (y :: ys)) with h | h
        · rw [h]; simp
        · rw [h]; exact List.mem_cons_of_mem _ (ih (by simp))
      · simp

theorem top_eq {ks : List Int} {m : Int} (hm : m ∈ ks) (h : ∀ k ∈ ks, k ≤ m) : top ks = m :=
  le_antisymm (h _ (top_mem (List.ne_nil_of_mem hm))) (le_top hm)

theorem top_perm {a b : List Int} (h : a.Perm b) : top a = top b := by
  by_cases ha : a = []
  · subst ha; rw [List.nil_perm.mp h]
  · exact (top_eq (h.symm.subset (top_mem (fun e => ha (by subst e; exact List.perm_nil.mp h)))) (fun k hk => le_top (h.subset hk)))

theorem collapse_perm (n : Nat) {a b : List Int} (h : a.Perm b) : (collapse n a).Perm (collapse n b) := by
  unfold collapse
  rw [top_perm h]
  exact h.map _

theorem top_collapse {n : Nat} (hn : 0 < n) (a : List Int) : top (collapse n a) = top a := by
  by_cases ha : a = []
  · subst ha; rfl
  · apply top_eq
    · exact List.mem_map.mpr ⟨top a, top_mem ha, by omega⟩
    · intro k hk
      obtain ⟨x, hx, rfl⟩ := List.mem_map.mp hk
      have := le_top hx
      omega

theorem top_append_left {a a' b : List Int} (hl : a = [] ↔ a' = []) (h : top a = top a') : top (a ++ b) = top (a' ++ b) := by
  by_cases ha : a = []
  · rw [ha, hl.mp ha]
  have ha' : a' ≠ [] := fun e => ha (hl.mpr e)
  have hm := top_mem (ks := a' ++ b) (by simp [ha'])
  rcases List.mem_append.mp hm with h1 | h1
  · have : top (a' ++ b) = top a' := le_antisymm (le_top h1) (le_top (List.mem_append_left _ (top_mem ha')))
    rw [this]
    apply top_eq
    · rw [← h]; exact List.mem_append_left _ (top_mem ha)
    · intro k hk
      rcases List.mem_append.mp hk with h2 | h2
      · rw [← h]; exact le_top h2
      · rw [← this]; exact le_top (List.mem_append_right _ h2)
  · apply top_eq
    · exact List.mem_append_right _ h1
    · intro k hk
      rcases List.mem_append.mp hk with h2 | h2
      · calc k ≤ top a := le_top h2
          _ = top a' := h
          _ ≤ _ := le_top (List.mem_append_left _ (top_mem ha'))
      · exact le_top (List.mem_append_right _ h2)

/-- Collapsing early makes no difference. -/
theorem collapse_append {n : Nat} (hn : 0 < n) (a b : List Int) : collapse n (collapse n a ++ b) = collapse n (a ++ b) := by
  have htop : top (collapse n a ++ b) = top (a ++ b) :=
    top_append_left (by simp [collapse]) (top_collapse hn a)
  unfold collapse at htop ⊢
  rw [htop, List.map_append, List.map_append, List.map_map]
  congr 1
  apply List.map_congr_left
  intro x hx
  have : top a ≤ top (a ++ b) := le_top (List.mem_append_left _ (top_mem (List.ne_nil_of_mem hx)))
  simp only [Function.comp]
  omega

/-- The keys of the values that are not zero. -/
def keysOf (c : Config) (vs : List Nat) : List Int := (vs.filter (· ≠ 0)).map c.key

theorem add_all (c : Config) (hb : 0 < c.bins) : ∀ (vs : List Nat) (s : Sketch), collapse c.bins s.keys = s.keys →
    (vs.foldl (Sketch.add c) s).zeros = s.zeros + vs.count 0 ∧
    (vs.foldl (Sketch.add c) s).keys.Perm (collapse c.bins (s.keys ++ keysOf c vs)) := by
  intro vs
  induction vs with
  | nil => intro s hs; simp [keysOf, hs]
  | cons v vs ih =>
    intro s hs
    by_cases hv : v = 0
    · subst hv
      obtain ⟨h1, h2⟩ := ih (s.add c 0) (by simpa [Sketch.add] using hs)
      refine ⟨?_, ?_⟩
      · rw [List.foldl_cons, h1]; simp [Sketch.add]; omega
      · rw [List.foldl_cons]; simpa [Sketch.add, keysOf] using h2
    · have hc : collapse c.bins (s.add c v).keys = (s.add c v).keys := by
        simp only [Sketch.add, if_neg hv]
        have := collapse_append hb (c.key v :: s.keys) []
        simpa using this
      obtain ⟨h1, h2⟩ := ih (s.add c v) hc
      refine ⟨?_, ?_⟩
      · rw [List.foldl_cons, h1]; simp [Sketch.add, hv]
      · rw [List.foldl_cons]
        refine h2.trans ?_
        simp only [Sketch.add, if_neg hv]
        rw [collapse_append hb]
        apply collapse_perm
        have : keysOf c (v :: vs) = c.key v :: keysOf c vs := by simp [keysOf, hv]
        rw [this]
        exact List.perm_middle.symm

/-- What a percentile metric holds, however its values were recorded and aggregated. -/
theorem eval_holds (c : Config) (hb : 0 < c.bins) : ∀ t : AggTree,
    (eval c t).zeros = t.vals.count 0 ∧ (eval c t).keys.Perm (collapse c.bins (keysOf c t.vals)) := by
  intro t
  induction t with
  | recorded vs =>
    have := add_all c hb vs {} rfl
    simpa [eval, AggTree.vals] using this
  | merge a b iha ihb =>
    refine ⟨by simp [eval, Sketch.aggregate, AggTree.vals, iha.1, ihb.1], ?_⟩
    have h1 : (collapse c.bins ((eval c a).keys ++ (eval c b).keys)).Perm
        (collapse c.bins (collapse c.bins (keysOf c a.vals) ++ collapse c.bins (keysOf c b.vals))) :=
      collapse_perm _ (iha.2.append ihb.2)
    refine h1.trans ?_
    rw [collapse_append hb]
    refine (collapse_perm _ List.perm_append_comm).trans ?_
    rw [collapse_append hb]
    refine (collapse_perm _ List.perm_append_comm).trans ?_
    simp [keysOf, AggTree.vals]

theorem eq_of_sorted {α : Type} [LinearOrder α] {a b : List α} (h : a.Perm b) (ha : a.Pairwise (· ≤ ·)) (hb : b.Pairwise (· ≤ ·)) :
    a = b :=
  List.Perm.eq_of_pairwise (le := (· ≤ ·)) (fun _ _ _ _ h1 h2 => le_antisymm h1 h2) ha hb h

theorem sort_perm {a b : List Int} (h : a.Perm b) : a.insertionSort (· ≤ ·) = b.insertionSort (· ≤ ·) :=
  eq_of_sorted ((List.perm_insertionSort _ a).trans (h.trans (List.perm_insertionSort _ b).symm))
    (List.pairwise_insertionSort _ a) (List.pairwise_insertionSort _ b)

/-- **C45** Percentile latencies: two ways of recording and aggregating the same values, in any order and grouping, show the same
percentile. -/
theorem C45_percentile_order_independent (c : Config) (hb : 0 < c.bins) (q : Rat) (t u : AggTree) (h : t.vals.Perm u.vals) :
    (eval c t).quantile c q = (eval c u).quantile c q := by
  have ht := eval_holds c hb t
  have hu := eval_holds c hb u
  have hz : (eval c t).zeros = (eval c u).zeros := by rw [ht.1, hu.1, h.count_eq]
  have hk : (eval c t).keys.Perm (eval c u).keys :=
    ht.2.trans ((collapse_perm _ ((h.filter _).map _)).trans hu.2.symm)
  unfold Sketch.quantile
  rw [hz, hk.length_eq, sort_perm hk]

/-- The value shown for `n` nanoseconds: that of its bin. -/
def shown (c : Config) (n : Nat) : Rat := if n = 0 then 0 else c.value (c.key n)

theorem collapse_fits {n : Nat} (ks : List Int) (h : ∀ a ∈ ks, ∀ b ∈ ks, a - b < n) : collapse n ks = ks := by
  unfold collapse
  conv_rhs => rw [← List.map_id ks]
  apply List.map_congr_left
  intro x hx
  have := h (top ks) (top_mem (List.ne_nil_of_mem hx)) x hx
  simp only [id]
  omega

/-- The values in ascending order. -/
def ascending (vs : List Nat) : List Nat := vs.insertionSort (· ≤ ·)

theorem ascending_pairwise (vs : List Nat) : (ascending vs).Pairwise (· ≤ ·) := List.pairwise_insertionSort _ vs

theorem ascending_perm (vs : List Nat) : (ascending vs).Perm vs := List.perm_insertionSort _ vs

theorem ascending_split (vs : List Nat) :
    ascending vs = List.replicate (vs.count 0) 0 ++ ascending (vs.filter (· ≠ 0)) := by
  refine eq_of_sorted ((ascending_perm vs).trans ?_) (ascending_pairwise vs) ?_
  · refine List.Perm.trans ?_ ((ascending_perm (vs.filter (· ≠ 0))).symm.append_left _)
    rw [List.perm_iff_count]
    intro a
    rw [List.count_append, List.count_replicate]
    by_cases ha : a = 0
    · subst ha; simp; exact List.count_eq_zero.mpr (fun hm => by simp at hm)
    · rw [List.count_filter (by simp [ha])]; simp [Ne.symm ha]
  · rw [List.pairwise_append]
    refine ⟨by simp [List.pairwise_replicate], ascending_pairwise _, ?_⟩
    intro x hx y _
    rw [(List.mem_replicate.mp hx).2]; exact Nat.zero_le _

/-- **C45** and it is the percentile of all recorded values: the value of the bin of the value at that position among all of them in
ascending order. This needs bins that follow the order of the values, and values whose bins lie within the number of bins kept;
otherwise the smallest ones are shown larger than they are. -/
theorem C45_percentile (c : Config) (hmono : ∀ a b, 0 < a → a ≤ b → c.key a ≤ c.key b) (hb : 0 < c.bins) (t : AggTree)
    (hfit : ∀ a ∈ t.vals, ∀ b ∈ t.vals, a ≠ 0 → b ≠ 0 → c.key a - c.key b < c.bins)
    (q : Rat) (hq : 0 ≤ q ∧ q ≤ 1) (hne : t.vals ≠ []) :
    ∃ v, (ascending t.vals)[(q * (t.vals.length - 1 : Rat)).floor.toNat]? = some v ∧ (eval c t).quantile c q = shown c v := by
  obtain ⟨h1, h2⟩ := eval_holds c hb t
  rw [collapse_fits] at h2
  swap
  · intro a ha b hb'
    simp only [keysOf, List.mem_map, List.mem_filter, decide_eq_true_eq] at ha hb'
    obtain ⟨x, ⟨hx, hx0⟩, rfl⟩ := ha
    obtain ⟨y, ⟨hy, hy0⟩, rfl⟩ := hb'
    exact hfit x hx y hy (by simpa using hx0) (by simpa using hy0)
  have hlen : (eval c t).zeros + (eval c t).keys.length = t.vals.length := by
    rw [h1, h2.length_eq, keysOf, List.length_map]
    have : ∀ l : List Nat, l.count 0 + (l.filter (· ≠ 0)).length = l.length := by
      intro l
      induction l with
      | nil => rfl
      | cons x xs ih =>
        by_cases hx : x = 0
        · subst hx; simp at ih ⊢; omega
        · simp [hx] at ih ⊢; omega
    exact this _
  have hpos : 0 < t.vals.length := List.length_pos_iff.mpr hne
  -- the rank lies within the values
  have hrank : (q * (t.vals.length - 1 : Rat)).floor.toNat < t.vals.length := by
    have hl1 : (1 : Rat) ≤ t.vals.length := by exact_mod_cast hpos
    have hle : q * (t.vals.length - 1 : Rat) ≤ t.vals.length - 1 := by nlinarith [hq.2]
    have hlt : (q * (t.vals.length - 1 : Rat)).floor < t.vals.length := by
      by_contra hge
      have hge' : ((t.vals.length : Nat) : Int) ≤ (q * (t.vals.length - 1 : Rat)).floor := by omega
      have h3 := Rat.le_floor_iff.mp hge'
      have h4 : (t.vals.length : Rat) ≤ q * (t.vals.length - 1 : Rat) := by exact_mod_cast h3
      linarith
    omega
  have hal : (ascending t.vals).length = t.vals.length := (ascending_perm _).length_eq
  -- the sorted keys are the keys of the sorted values
  have hsort : (eval c t).keys.insertionSort (· ≤ ·) = (ascending (t.vals.filter (· ≠ 0))).map c.key := by
    refine eq_of_sorted ((List.perm_insertionSort _ _).trans (h2.trans ?_)) (List.pairwise_insertionSort _ _) ?_
    · exact (ascending_perm _).symm.map _
    · rw [List.pairwise_map]
      refine (ascending_pairwise _).imp_of_mem ?_
      intro a b ha _ hab
      have : a ≠ 0 := by
        have := (ascending_perm (t.vals.filter (· ≠ 0))).subset ha
        simpa using (List.mem_filter.mp this).2
      exact hmono a b (by omega) hab
  refine ⟨(ascending t.vals)[(q * (t.vals.length - 1 : Rat)).floor.toNat]'(by omega), List.getElem?_eq_getElem _, ?_⟩
  unfold Sketch.quantile
  simp only [hlen]
  rw [if_neg (by omega), hsort, h1]
  obtain ⟨r, hr⟩ : ∃ r, r = (q * (t.vals.length - 1 : Rat)).floor.toNat := ⟨_, rfl⟩
  simp only [← hr] at hrank ⊢
  have hget : (ascending t.vals)[r]? = (List.replicate (t.vals.count 0) 0 ++ ascending (t.vals.filter (· ≠ 0)))[r]? := by
    rw [← ascending_split]
  rw [List.getElem?_eq_getElem (by omega)] at hget
  by_cases hz : r < t.vals.count 0
  · rw [if_pos hz]
    rw [List.getElem?_append_left (by simpa using hz), List.getElem?_replicate, if_pos hz] at hget
    cases hget' : (ascending t.vals)[r]'(by omega) with
    | zero => simp [shown]
    | succ n => rw [hget'] at hget; cases hget
  · rw [if_neg hz]
    rw [List.getElem?_append_right (by simpa using hz), List.length_replicate] at hget
    rw [List.getElem?_map, ← hget]
    have hmem : (ascending t.vals)[r]'(by omega) ∈ ascending (t.vals.filter (· ≠ 0)) := List.mem_of_getElem? hget.symm
    have hnz : (ascending t.vals)[r]'(by omega) ≠ 0 := by
      have := (ascending_perm (t.vals.filter (· ≠ 0))).subset hmem
      simpa using (List.mem_filter.mp this).2
    simp [shown, hnz]

/-! Cases. -/

/-- Bins of powers of two, eight of them. -/
def demo : Config := ⟨fun n => (Nat.log2 n : Int), fun k => (2 : Rat) ^ k.toNat, 8⟩

example : demo.key 5 - demo.key 1 < demo.bins := by decide
example : (eval demo (.merge (.recorded [1, 5]) (.recorded [100, 0, 9]))).quantile demo (1/2) = shown demo 5 := by decide +kernel
/-- With more bins than are kept, small values are shown larger. -/
example : (eval demo (.merge (.recorded [1]) (.recorded [5000]))).quantile demo 0 = 32 := by decide +kernel

end DD.Percentile
