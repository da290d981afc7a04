/-
**C70**: a distributed query returns its rows in the order its plan promises, and every operator gets its inputs in the order
it relies on.
-/
import Verif.Spec.OrderBy
import Verif.Lemmas.OrderPlan
import Verif.Props.Plan

namespace DD.Tree

open DD.Limit

variable {Row : Type} {env : Env Row}

/-- **C70** On a single node: whatever arrives first where streams are read at the same time, the rows come in the
order the plan promises and are one of its answers. This is what the distributed execution has to match. -/
theorem C70_single_node_order {p : Plan Row} {J : SInfo Row} (h : Src env .pre p J) (hrep : J.rep = false) (ho : J.one = true)
    {le} (hq : Ordered true p (some le)) : (∃ l, Delivers p l) ∧ ∀ l, Delivers p l →
      l.Pairwise (fun x y => le x y = true) ∧ ∃ d, Answer p d ∧ J.eqv.eqv l d := by
  refine ⟨hq.exists_delivers, ?_⟩
  rintro l ⟨r, hr, rfl⟩
  refine ⟨hq.sorted hr _ _ _, ?_⟩
  obtain ⟨P, hl, _⟩ := h.single rfl
  have hP := h.one_parts ho
  rw [hrep] at hl
  obtain ⟨d, hd, hg⟩ := hl.runs_good Nat.one_pos hq hr false
  refine ⟨d, hd, ?_⟩
  have := hg.share rfl
  have hp1 : r.1.parts = 1 := by rw [hg.parts]; rw [← hP]; exact (hl.good Nat.one_pos false).choose_spec.2.parts.symm
  simpa only [List.range_one, List.flatMap_cons, List.flatMap_nil, List.append_nil, Ran.rows, hp1] using this

theorem preparePlan_ordered {p p1 : Plan Row} {o} (hq : Ordered false p o) (h1 : preparePlan env p = .ok p1) :
    Ordered false p1 none := by
  unfold preparePlan at h1
  obtain ⟨p0, h0, h1⟩ := bind_ok h1
  have a0 := normalize_keeps h0 _ hq.weaken
  have a1 : Ordered false (if p0.parts > 1 then fresh (.coalesce none) [p0] else p0) none := by
    split
    · exact ordered_one a0 (by rintro _ ⟨⟩)
    · exact a0
  revert a1 h1
  generalize (if p0.parts > 1 then fresh (.coalesce none) [p0] else p0) = x
  intro h1 a1
  have hb : Ordered false (if env.broadcastJoins = true then insertBroadcast x else x) none := by
    split
    · exact insertBroadcast_keeps x _ a1
    · exact a1
  change (if env.isolateUnions = true then isolateUnions _ else Except.ok _) = Except.ok p1 at h1
  split at h1
  · exact isolateUnions_keeps h1 _ hb
  · cases h1; exact hb

/-- In a planned query every operator is given the order it relies on. -/
theorem plan_ordered (hs : ScaleKeepsOrder env) {p p' : Plan Row} {o} (hq : Ordered false p o) (hp : plan env p = .ok (some p')) :
    Ordered false p' none := by
  obtain ⟨p1, p2, p3, id, h1, h2, h3, _, rfl⟩ := plan_steps hp
  have := preparePlan_ordered hq h1
  have a3 := prepare_keeps h3 _ (inject_keeps hs h2 _ this)
  split
  · exact partialReduce_keeps p3 _ a3
  · exact a3

/-- **C70** For every plan the planner is given and accepts (`Src`), every session, if the plan is distributed: the
query can be executed, and whatever order rows arrive in at any place where several streams are read at the same time, every
operator that relies on the order of an input (merge joins, aggregations and windows over sorted input, merges with a fetch) gets
that order, and what the client receives is, as far as `J.eqv` tells rows apart, one of the answers of the plan. `Ordered
false`: hash repartitionings made to preserve an order are not relied on. They lose it, see
`C70_order_preserving_repartition_false`.

Missing for the full claim: orders of such repartitionings, sessions that change the order of the rows of a leaf when they
scale it up (`ScaleKeepsOrder`; the default does for some scans, see `C70_scaled_scan_order_false`), and what is missing for C08. -/
theorem C70_operators_get_sorted_inputs_partial (he : EnvOk env) (hs : ScaleKeepsOrder env) {p p' : Plan Row} {J : SInfo Row}
    (h : Src env .pre p J) (hrep : J.rep = false) (hroot : RootOk env p J) {o} (hq : Ordered false p o)
    (hp : plan env p = .ok (some p')) : (∃ l, Delivers p' l) ∧ ∀ l, Delivers p' l → ∃ d, Answer p d ∧ J.eqv.eqv l d := by
  have ho := plan_ordered hs hq hp
  obtain ⟨_, hl, e⟩ := plan_src he h hrep hroot hp
  refine ⟨ho.exists_delivers, ?_⟩
  rintro l ⟨r, hr, rfl⟩
  obtain ⟨d, hd, hg⟩ := hl.runs_good Nat.one_pos ho hr false
  obtain ⟨d', hd', e2⟩ := e d hd
  refine ⟨d', hd', J.eqv.trans ?_ e2⟩
  have := hg.share rfl
  have hp1 : r.1.parts = 1 := hg.parts
  simpa only [List.range_one, List.flatMap_cons, List.flatMap_nil, List.append_nil, Ran.rows, hp1] using this

/-- **C70** If the root of the plan promises an order and is gathered, the client receives the rows in that order, however
streams are interleaved on the way. Missing: as above. -/
theorem C70_promised_order_is_kept_partial (he : EnvOk env) (hs : ScaleKeepsOrder env) {p p' : Plan Row} {J : SInfo Row}
    (h : Src env .pre p J) (hrep : J.rep = false) (hg : J.gathered = true) (ho : J.one = true) {le}
    (hq : Ordered false p (some le)) (hp : plan env p = .ok (some p')) :
    (∃ l, Delivers p' l) ∧ ∀ l, Delivers p' l →
      l.Pairwise (fun x y => le x y = true) ∧ ∃ d, Answer p d ∧ J.eqv.eqv l d := by
  obtain ⟨h1, h2⟩ := C70_operators_get_sorted_inputs_partial he hs h hrep (.inl ⟨hg, ho⟩) hq hp
  refine ⟨h1, fun l hl => ⟨?_, h2 l hl⟩⟩
  obtain ⟨r, hr, rfl⟩ := hl
  refine Ordered.sorted (plan_keeps hs hp (fun p1 e => ?_) _ hq) hr _ _ _
  have := (normalize_src he h rfl p1 e).1.one_parts ho
  omega

/-! ### `ORDER BY` and `ORDER BY ... LIMIT` -/

theorem sortOp_hom (le : Row → Row → Bool) (h : TotalOrder le) : Hom .perm .perm (sortOp le h) where
  nil x hx := hx
  append a b x y hx hy := ⟨a ++ b, .refl _, hx.append hy⟩
  congr a b x hab hx := ⟨x, List.Perm.trans hx hab, .refl _⟩

theorem topOp_hom (le : Row → Row → Bool) (h : TotalOrder le) (n : Nat) : Hom .perm .perm (topOp le h n) where
  nil x hx := by
    obtain ⟨d, h1, _⟩ := hx
    have : x ++ d = [] := List.perm_nil.mp h1
    rw [List.append_eq_nil_iff] at this
    rw [this.1]; exact .refl _
  append a b x y hx hy := by
    refine ⟨x ++ y, ?_, .refl _⟩
    obtain ⟨d1, h1, h2⟩ := hx
    obtain ⟨d2, h3, h4⟩ := hy
    refine ⟨d1 ++ d2, ?_, ?_⟩
    · refine List.Perm.trans ?_ (h1.append h3)
      rw [List.append_assoc, List.append_assoc]
      refine List.Perm.append_left _ ?_
      rw [← List.append_assoc, ← List.append_assoc]
      exact List.perm_append_comm.append_right _
    · intro d hd
      rw [List.filter_append, List.length_append]
      rcases List.mem_append.mp hd with hd | hd
      · exact Nat.le_trans (h2 d hd) (Nat.le_add_right _ _)
      · exact Nat.le_trans (h4 d hd) (Nat.le_add_left _ _)
  congr a b x hab hx := by
    obtain ⟨d1, h1, h2⟩ := hx
    exact ⟨x, ⟨d1, List.Perm.trans h1 hab, h2⟩, .refl _⟩

theorem firstOp_whole (le : Row → Row → Bool) (h : TotalOrder le) (n : Nat) : Whole [.perm] .perm (firstOp le h n) := by
  intro as bs x hs hx
  match as, bs, hs, hx with
  | a :: _, b :: _, ⟨hab, _⟩, ⟨s, ⟨h1, h2⟩, hx⟩ =>
    subst hx
    exact ⟨_, ⟨s, ⟨List.Perm.trans h1 hab, h2⟩, rfl⟩, .refl _⟩

/-- Dropping rows that `n` others sort before does not change the first `n` rows. -/
theorem IsFirst.of_pruned {le : Row → Row → Bool} (h : TotalOrder le) {n : Nat} {a x l : List Row} (hx : Pruned le n a x)
    (hl : IsFirst le n x l) : IsFirst le n a l := by
  obtain ⟨dropped, h1, h2⟩ := hx
  obtain ⟨s, ⟨s1, s2⟩, rfl⟩ := hl
  have key : ∀ r ∈ s.take n, ∀ d ∈ dropped, le r d = true := by
    intro r hr d hd
    obtain ⟨i, hi, rfl⟩ := List.mem_iff_getElem.mp hr
    have hin : i < n := by simp at hi; omega
    have his : i < s.length := by simp at hi; omega
    rw [List.getElem_take]
    have hc := h2 d hd
    rw [← (s1.filter _).length_eq] at hc
    cases hle : le s[i] d with
    | true => rfl
    | false =>
      -- all rows not after `d` stand before position `i`
      exfalso
      have hsplit := List.take_append_drop i s
      have hnone : (s.drop i).filter (fun r => le r d) = [] := by
        rw [List.filter_eq_nil_iff]
        intro y hy hyd
        obtain ⟨j, hj, rfl⟩ := List.mem_iff_getElem.mp hy
        rw [List.getElem_drop] at hyd
        have hij : i + j < s.length := by simp at hj; omega
        have : le s[i] s[i + j] = true := by
          rcases Nat.eq_zero_or_pos j with rfl | hj0
          · rcases h.1 s[i] s[i] with e | e <;> exact e
          · exact List.pairwise_iff_getElem.mp s2 i (i + j) his hij (by omega)
        have : le s[i] d = true := h.2 _ _ _ this hyd
        rw [hle] at this; cases this
      have hlen : (s.filter fun r => le r d).length ≤ i := by
        conv_lhs => rw [← hsplit]
        rw [List.filter_append, hnone, List.append_nil]
        exact Nat.le_trans (List.length_filter_le _ _) (by simp)
      omega
  have hsorted := IsSorted.mergeSort h (s.drop n ++ dropped)
  refine ⟨s.take n ++ (s.drop n ++ dropped).mergeSort le, ⟨?_, ?_⟩, ?_⟩
  · refine List.Perm.trans (List.Perm.append_left _ hsorted.1) ?_
    rw [← List.append_assoc, List.take_append_drop]
    exact List.Perm.trans (s1.append_right _) h1
  · rw [List.pairwise_append]
    refine ⟨s2.sublist (List.take_sublist _ _), hsorted.2, ?_⟩
    intro r hr y hy
    rcases List.mem_append.mp (hsorted.1.mem_iff.mp hy) with hy | hy
    · rw [← List.take_append_drop n s, List.pairwise_append] at s2
      exact s2.2.2 r hr y hy
    · exact key r hr y hy
  · by_cases hn : n ≤ s.length
    · rw [List.take_append_of_le_length (by simp; omega), List.take_take, Nat.min_self]
    · have h0 : dropped = [] := by
        cases dropped with
        | nil => rfl
        | cons d ds =>
          have := h2 d (by simp)
          have h3 := List.length_filter_le (fun r => le r d) x
          have h4 := s1.length_eq
          omega
      subst h0
      rw [List.drop_eq_nil_of_le (by omega)]
      simp [List.take_take]

/-- Rows that compare equal may be exchanged. -/
theorem IsFirst.of_perm {le : Row → Row → Bool} {n : Nat} {a l t : List Row} (h : IsFirst le n a t) (hl : l.Perm t)
    (hs : l.Pairwise fun x y => le x y = true) : IsFirst le n a l := by
  obtain ⟨s, ⟨s1, s2⟩, rfl⟩ := h
  refine ⟨l ++ s.drop n, ⟨?_, ?_⟩, ?_⟩
  · refine List.Perm.trans (hl.append_right _) ?_
    rw [List.take_append_drop]; exact s1
  · rw [← List.take_append_drop n s, List.pairwise_append] at s2
    exact List.pairwise_append.mpr ⟨hs, s2.2.1, fun x hx y hy => s2.2.2 x (hl.mem_iff.mp hx) y hy⟩
  · have hlen := hl.length_eq
    rw [List.length_take] at hlen
    by_cases hn : n ≤ s.length
    · rw [List.take_append_of_le_length (by omega), List.take_of_length_le (by omega)]
    · rw [List.drop_eq_nil_of_le (by omega), List.append_nil, List.take_of_length_le (by omega)]

theorem orderBy_ordered {one : Bool} {le : Row → Row → Bool} (h : TotalOrder le) {c : Plan Row} {o} (hc : Ordered one c o) :
    Ordered one (orderBy le h c) (some le) := by
  have h1 : Ordered one (fresh (.op (sortOp le h) none) [c]) (some le) := by
    refine .node (fun _ => none) ?_ ⟨fun _ => .inl rfl, by rintro _ ⟨⟩⟩ (by rintro _ ⟨⟩; rfl)
    intro i c' e
    match i with
    | 0 => cases e; exact hc.weaken
    | i + 1 => simp at e
  refine .node (fun _ => some le) ?_ ⟨h, rfl, by rintro _ ⟨⟩⟩ (by rintro _ ⟨⟩; rfl)
  intro i c' e
  match i with
  | 0 => cases e; exact h1
  | i + 1 => simp at e

theorem orderByLimit_ordered {one : Bool} {le : Row → Row → Bool} (h : TotalOrder le) (n : Nat) {c : Plan Row} {o}
    (hc : Ordered one c o) : Ordered one (orderByLimit le h n c) (some le) := by
  have h1 : Ordered one (fresh (.op (topOp le h n) none) [c]) (some le) := by
    refine .node (fun _ => none) ?_ ⟨fun _ => .inl rfl, by rintro _ ⟨⟩⟩ (by rintro _ ⟨⟩; rfl)
    intro i c' e
    match i with
    | 0 => cases e; exact hc.weaken
    | i + 1 => simp at e
  refine .node (fun _ => some le) ?_ ⟨h, rfl, by rintro _ ⟨⟩; exact .inr rfl⟩ (by rintro _ ⟨⟩; rfl)
  intro i c' e
  match i with
  | 0 => cases e; exact h1
  | i + 1 => simp at e

theorem orderBy_src {le : Row → Row → Bool} (hle : TotalOrder le) {c : Plan Row} {d one ga} (h : Src env .pre c ⟨d, one, false, .perm, ga⟩) :
    Src env .pre (orderBy le hle c) ⟨none, true, false, .perm, true⟩ :=
  .gather (.inr ⟨le, rfl⟩) (by rintro _ _ ⟨⟩) (fun _ => ⟨by rintro _ _ _ ⟨⟩, by rintro _ ⟨⟩⟩) (by simp)
    (.opLocal (d' := none) (sortOp_hom le hle) (by rintro _ ⟨⟩) (by rintro _ _ ⟨⟩) h)

/-- **C70** `ORDER BY`: the client receives the rows of one answer of the query below, sorted. For every order, every
query below the `ORDER BY`, every session and every timing. -/
theorem C70_order_by {le : Row → Row → Bool} (hle : TotalOrder le) (he : EnvOk env) (hs : ScaleKeepsOrder env) {c p' : Plan Row}
    {d one ga o} (h : Src env .pre c ⟨d, one, false, .perm, ga⟩) (hc : Ordered false c o)
    (hp : plan env (orderBy le hle c) = .ok (some p')) :
    (∃ l, Delivers p' l) ∧ ∀ l, Delivers p' l → ∃ a, Answer c a ∧ IsSorted le a l := by
  obtain ⟨h1, h2⟩ := C70_promised_order_is_kept_partial he hs (orderBy_src hle h) rfl rfl rfl (orderBy_ordered hle hc) hp
  refine ⟨h1, fun l hl => ?_⟩
  obtain ⟨g1, x, hx, g2⟩ := h2 l hl
  simp only [orderBy, fresh] at hx
  rw [answer_pass (fun _ _ => Iff.rfl)] at hx
  obtain ⟨a, ha, e⟩ := answer_one.mp hx
  exact ⟨a, ha, List.Perm.trans g2 e, g1⟩

/-- **C70** `ORDER BY ... LIMIT n`: the client receives the first `n` rows, in order, of one answer of the query below, sorted,
although every task of the query sorts its own rows and passes on `n` of them per partition. -/
theorem C70_order_by_limit {le : Row → Row → Bool} (hle : TotalOrder le) (n : Nat) (he : EnvOk env) (hs : ScaleKeepsOrder env)
    {c p' : Plan Row} {d one ga o} (h : Src env .pre c ⟨d, one, false, .perm, ga⟩) (hc : Ordered false c o)
    (hp : plan env (orderByLimit le hle n c) = .ok (some p')) :
    (∃ l, Delivers p' l) ∧ ∀ l, Delivers p' l →
      ∃ a, Answer c a ∧ IsFirst le n a l := by
  have hsrc : Src env .pre (orderByLimit le hle n c) ⟨none, true, false, .perm, true⟩ :=
    .fetch (.inr ⟨le, rfl⟩) (firstOp_whole le hle n) (by rintro _ _ ⟨⟩) (by rintro _ _ _ ⟨⟩) (by rintro _ ⟨⟩)
      (.opLocal (d' := none) (topOp_hom le hle n) (by rintro _ ⟨⟩) (by rintro _ _ ⟨⟩) h)
  obtain ⟨h1, h2⟩ := C70_promised_order_is_kept_partial he hs hsrc rfl rfl rfl (orderByLimit_ordered hle n hc) hp
  refine ⟨h1, fun l hl => ?_⟩
  obtain ⟨g1, x, hx, g2⟩ := h2 l hl
  obtain ⟨y, hy, hx⟩ := answer_one.mp hx
  obtain ⟨a, ha, e⟩ := answer_one.mp hy
  exact ⟨a, ha, (IsFirst.of_pruned hle e hx).of_perm g2 g1⟩

/-! ### Queries they apply to -/

namespace Demo

theorem hashPart_sublist {Row : Type} (h : Row → Nat) (n b : Nat) (l : List Row) : (hashPart h n b l).Sublist l := List.filter_sublist

theorem sess_keeps_order : ScaleKeepsOrder sess := by
  intro k tc T p' o ho hp
  cases k
  case leaf ps =>
    cases hp
    obtain ⟨a, _, _, h3⟩ := ho.inv
    refine .node (fun _ => none) (by simp) True.intro ?_
    intro le e
    have h : ∀ p ∈ ps, SortedBy (some le) p := h3 le e
    refine ⟨h, ?_⟩
    intro v hv p hp
    simp only [scaled, List.mem_map] at hv
    obtain ⟨t, _, rfl⟩ := hv
    obtain ⟨x, hx, rfl⟩ := List.mem_map.mp hp
    exact List.Pairwise.sublist (hashPart_sublist _ _ _ _) (h x hx)
  all_goals (exact absurd hp (by simp [sess]))

/-- Ordered by the first component. -/
def byKey (a b : Nat × Nat) : Bool := a.1 ≤ b.1

theorem byKey_total : TotalOrder byKey := by
  constructor
  · intro a b; simp only [byKey, decide_eq_true_eq]; omega
  · intro a b c; simp only [byKey, decide_eq_true_eq]; omega

theorem leaf_any (ps : List (List (Nat × Nat))) : Ordered false (fresh (.leaf ps) []) none := .node (fun _ => none) (by simp) True.intro (by rintro _ ⟨⟩)

theorem input_ordered : Ordered false input none := by
  refine ordered_one (k := keep) (.node (fun _ => none) ?_ True.intro (by rintro _ ⟨⟩)) ⟨fun _ => .inl rfl, by rintro _ ⟨⟩⟩
  intro i c e
  match i with
  | 0 => cases e; exact ordered_one (leaf_any _) (by rintro _ ⟨⟩)
  | 1 => cases e; exact leaf_any _
  | i + 2 => simp at e

/-- A scan of files that are sorted by the first component. -/
def sortedScan : Plan (Nat × Nat) := fresh (.leaf [[(1, 1), (2, 2), (7, 3)], [(1, 4), (3, 5)]]) []

theorem sortedScan_ordered : Ordered false sortedScan (some byKey) := by
  refine .node (fun _ => none) (by simp) True.intro ?_
  rintro _ ⟨⟩ p hp
  simp only [List.mem_cons, List.not_mem_nil, or_false] at hp
  rcases hp with rfl | rfl <;> (show List.Pairwise _ _; decide)

/-- A join that probes with a sorted scan; the order of the scan is not sorted again but merged. -/
def probe : Plan (Nat × Nat) :=
  fresh (.spm none byKey) [fresh (.join .collect (onFirst .inner)) [fresh (.coalesce none) [small], sortedScan]]

theorem probe_src : Src sess .pre probe ⟨none, true, false, .perm, true⟩ := by
  refine .gather (d := none) (one := false) (ga := false) (.inr ⟨_, rfl⟩) (by rintro _ _ ⟨⟩) (fun _ => ⟨by rintro _ _ _ ⟨⟩, by rintro _ ⟨⟩⟩) (by simp) ?_
  refine .joinSafe (oneB := true) (repB := false) (d := none) (d' := none) (gaB := true) (one := false) (ga := false) (by simp) rfl rfl
    (by rintro _ _ ⟨⟩) (by intro _ g e; cases e) (by simp) (by simp) (by simp) ?_ (leaf_src _ _ (by simp) (by simp))
  exact .gather (.inl rfl) (by rintro _ _ ⟨⟩) (fun _ => ⟨by rintro _ _ _ ⟨⟩, by rintro _ ⟨⟩⟩) (by simp)
    (leaf_src _ false (by simp) (by simp))

theorem onFirst_keeps : ProbeKeeps (onFirst .inner) byKey byKey := by
  refine ⟨fun r => by simp [byKey], ?_⟩
  have key : ∀ build r x, x ∈ joinRows (onFirst .inner) build [r] → x.1 = r.1 := by
    intro build r x hx
    simp only [joinRows, onFirst, pairs, List.mem_flatMap, List.mem_map, List.mem_filter, List.mem_singleton] at hx
    obtain ⟨l, _, y, ⟨rfl, h⟩, rfl⟩ := hx
    simpa using h
  intro build r r' h x hx y hy
  have h1 := key _ _ _ hx
  have h2 := key _ _ _ hy
  simp only [byKey, decide_eq_true_eq] at h ⊢
  omega

theorem probe_ordered : Ordered false probe (some byKey) := by
  have hj : Ordered false (fresh (.join .collect (onFirst .inner)) [fresh (.coalesce none) [small], sortedScan]) (some byKey) := by
    refine .node (fun i => if i = 1 then some byKey else none) ?_ True.intro ?_
    · intro i c e
      match i with
      | 0 => cases e; exact ordered_one (leaf_any _) (by rintro _ ⟨⟩)
      | 1 => cases e; exact sortedScan_ordered
      | i + 2 => simp at e
    · rintro _ ⟨⟩
      exact ⟨rfl, byKey, rfl, onFirst_keeps⟩
  refine .node (fun _ => some byKey) ?_ ⟨byKey_total, rfl, by rintro _ ⟨⟩⟩ (by rintro _ ⟨⟩; rfl)
  intro i c e
  match i with
  | 0 => cases e; exact hj
  | i + 1 => simp at e

/-- The first `n` rows of every partition of a sorted input: a limit that relies on the order of its input. -/
def limitOp (n : Nat) : Op (Nat × Nat) := { firstOp byKey byKey_total n with
  may := fun as x => Pruned byKey n (as.getD 0 []) x
  ok := fun _ _ _ as => pruned_take n (.mergeSort byKey_total _) }

/-- The two smallest rows of a sorted scan, read without sorting. -/
def smallest : Plan (Nat × Nat) :=
  fresh (.spm (some (firstOp byKey byKey_total 2)) byKey) [fresh (.op (limitOp 2) none) [sortedScan]]

theorem smallest_src : Src sess .pre smallest ⟨none, true, false, .perm, true⟩ :=
  .fetch (.inr ⟨_, rfl⟩) (firstOp_whole byKey byKey_total 2) (by rintro _ _ ⟨⟩) (by rintro _ _ _ ⟨⟩) (by rintro _ ⟨⟩)
    (.opLocal (d := none) (d' := none) (one := false) (ga := false) ⟨(topOp_hom byKey byKey_total 2).nil, (topOp_hom byKey byKey_total 2).append,
      (topOp_hom byKey byKey_total 2).congr⟩ (by rintro _ ⟨⟩) (by rintro _ _ ⟨⟩) (leaf_src _ _ (by simp) (by simp)))

theorem smallest_ordered : Ordered false smallest (some byKey) := by
  have h1 : Ordered false (fresh (.op (limitOp 2) none) [sortedScan]) (some byKey) := by
    refine .node (fun i => if i = 0 then some byKey else none) ?_ ⟨fun _ => .inr rfl, by rintro _ ⟨⟩⟩ (by rintro _ ⟨⟩; rfl)
    intro i c e
    match i with
    | 0 => cases e; exact sortedScan_ordered
    | i + 1 => simp at e
  refine .node (fun _ => some byKey) ?_ ⟨byKey_total, rfl, by rintro _ ⟨⟩; exact .inr rfl⟩ (by rintro _ ⟨⟩; rfl)
  intro i c e
  match i with
  | 0 => cases e; exact h1
  | i + 1 => simp at e

end Demo

/-- `ORDER BY` over a broadcast join and a filter. -/
example : ∃ p', plan Demo.sess (orderBy Demo.byKey Demo.byKey_total Demo.input) = .ok (some p') ∧ (∃ l, Delivers p' l)
    ∧ ∀ l, Delivers p' l → ∃ a, Answer Demo.input a ∧ IsSorted Demo.byKey a l := by
  obtain ⟨p', hp⟩ := planned_of (env := Demo.sess) (p := orderBy Demo.byKey Demo.byKey_total Demo.input) (by decide +kernel)
  exact ⟨p', hp, C70_order_by _ Demo.sess_ok Demo.sess_keeps_order Demo.input_src Demo.input_ordered hp⟩

/-- `ORDER BY ... LIMIT 2` likewise. -/
example : ∃ p', plan Demo.sess (orderByLimit Demo.byKey Demo.byKey_total 2 Demo.input) = .ok (some p') ∧ (∃ l, Delivers p' l)
    ∧ ∀ l, Delivers p' l → ∃ a, Answer Demo.input a ∧ IsFirst Demo.byKey 2 a l := by
  obtain ⟨p', hp⟩ := planned_of (env := Demo.sess) (p := orderByLimit Demo.byKey Demo.byKey_total 2 Demo.input) (by decide +kernel)
  exact ⟨p', hp, C70_order_by_limit _ 2 Demo.sess_ok Demo.sess_keeps_order Demo.input_src Demo.input_ordered hp⟩

/-- The order of a scan, kept by a join and a merge, without a sort. -/
example : ∃ p', plan Demo.sess Demo.probe = .ok (some p') ∧ (∃ l, Delivers p' l)
    ∧ ∀ l, Delivers p' l → l.Pairwise (fun x y => Demo.byKey x y = true) ∧ ∃ d, Answer Demo.probe d ∧ l.Perm d := by
  obtain ⟨p', hp⟩ := planned_of (env := Demo.sess) (p := Demo.probe) (by decide +kernel)
  exact ⟨p', hp, C70_promised_order_is_kept_partial Demo.sess_ok Demo.sess_keeps_order Demo.probe_src rfl rfl rfl Demo.probe_ordered hp⟩

/-- An operator in a worker relies on the order of its input. -/
example : ∃ p', plan Demo.sess Demo.smallest = .ok (some p') ∧ (∃ l, Delivers p' l)
    ∧ ∀ l, Delivers p' l → ∃ d, Answer Demo.smallest d ∧ l.Perm d := by
  obtain ⟨p', hp⟩ := planned_of (env := Demo.sess) (p := Demo.smallest) (by decide +kernel)
  exact ⟨p', hp, C70_operators_get_sorted_inputs_partial Demo.sess_ok Demo.sess_keeps_order Demo.smallest_src rfl (.inl ⟨rfl, rfl⟩)
    Demo.smallest_ordered hp⟩

/-- On a single node. -/
example : (∃ l, Delivers Demo.probe l) ∧ ∀ l, Delivers Demo.probe l → l.Pairwise (fun x y => Demo.byKey x y = true)
    ∧ ∃ d, Answer Demo.probe d ∧ l.Perm d :=
  C70_single_node_order (env := Demo.sess) Demo.probe_src rfl rfl (Demo.probe_ordered.single (by decide +kernel))

/-! ### Where the conditions are needed -/

theorem Runs.of_kids {k : Kind Row} {tc cs rs} (h : ∀ (i : Nat) c r, cs[i]? = some c → rs[i]? = some r → Runs c r)
    (hl : rs.length = cs.length) (he : ∀ w ctx q, ∃ l, Emits k rs w ctx q l) {w ctx q l} (h0 : Emits k rs w ctx q l) :
    ∃ r, Runs (.node k tc cs) r ∧ (∀ w ctx q, Emits k rs w ctx q (r.1.exec w ctx q)) ∧ r.1.exec w ctx q = l ∧ r.1.parts = (runKind k rs).parts
      ∧ r.2 = if k.isHead then (rs.getD 0 (.none, .none)).1 else r.1 := by
  choose f hf using he
  have hdec : ∀ w' ctx' q', ∃ l', Emits k rs w' ctx' q' l' ∧ (w' = w ∧ ctx' = ctx ∧ q' = q → l' = l) := by
    intro w' ctx' q'
    by_cases e : w' = w ∧ ctx' = ctx ∧ q' = q
    · obtain ⟨rfl, rfl, rfl⟩ := e
      exact ⟨l, h0, fun _ => rfl⟩
    · exact ⟨f w' ctx' q', hf _ _ _, fun e' => absurd e' e⟩
  choose g hg using hdec
  exact ⟨(⟨(runKind k rs).parts, g⟩, if k.isHead then (rs.getD 0 (.none, .none)).1 else ⟨(runKind k rs).parts, g⟩),
    runs_node.mpr ⟨rs, ⟨hl, h⟩, rfl, fun w ctx q => (hg w ctx q).1, rfl⟩, fun w ctx q => (hg w ctx q).1, (hg w ctx q).2 ⟨rfl, rfl, rfl⟩, rfl, rfl⟩

namespace Demo

/-- Ordered by the second component. -/
def bySecond (a b : Nat × Nat) : Bool := a.2 ≤ b.2

theorem bySecond_total : TotalOrder bySecond := by
  constructor
  · intro a b; simp only [bySecond, decide_eq_true_eq]; omega
  · intro a b c; simp only [bySecond, decide_eq_true_eq]; omega

/-- A sorted scan, hash partitioned by a `RepartitionExec` that preserves the order, and merged. -/
def resorted : Plan (Nat × Nat) :=
  fresh (.spm none bySecond) [fresh (.hashRepart (fun _ => 0) 2 (some bySecond)) [fresh (.leaf [[(0, 1), (1, 2)]]) []]]

theorem resorted_ordered : Ordered true resorted (some bySecond) := by
  have h0 : Ordered true (fresh (.leaf [[((0 : Nat), (1 : Nat)), (1, 2)]]) []) (some bySecond) := by
    refine .node (fun _ => none) (by simp) True.intro ?_
    rintro _ ⟨⟩ p hp
    simp only [List.mem_cons, List.not_mem_nil, or_false] at hp
    subst hp
    show List.Pairwise _ _
    decide
  have h1 : Ordered true (fresh (.hashRepart (fun _ => 0) 2 (some bySecond)) [fresh (.leaf [[((0 : Nat), (1 : Nat)), (1, 2)]]) []]) (some bySecond) := by
    refine .node (fun _ => some bySecond) ?_ (by rintro _ ⟨⟩; exact bySecond_total) (by rintro _ ⟨⟩; exact ⟨rfl, rfl, rfl⟩)
    intro i c e
    match i with
    | 0 => cases e; exact h0
    | i + 1 => simp at e
  refine .node (fun _ => some bySecond) ?_ ⟨bySecond_total, rfl, by rintro _ ⟨⟩⟩ (by rintro _ ⟨⟩; rfl)
  intro i c e
  match i with
  | 0 => cases e; exact h1
  | i + 1 => simp at e

/-- The plan it is distributed to: three tasks scan, a shuffle in the head stage reads them at the same time. -/
def resortedPlan : Plan (Nat × Nat) :=
  .node (.spm none bySecond) (.desired 3) [.node (.shuffle (fun _ => 0) 2 3 1) (.desired 3)
    [.node (.hashRepart (fun _ => 0) 2 none) (.desired 3)
      [.node (.distLeaf [[(0, 1), (1, 2)]] [[[(0, 1)]], [[(1, 2)]], [[]]]) (.desired 3) []]]]

theorem resorted_plan : plan sess resorted = .ok (some resortedPlan) := by with_unfolding_all rfl

theorem interleaved_nil {R : Nat × Nat → Nat × Nat → Prop} {ls : List (List (Nat × Nat))} {l} (h : Merged R ls l) (hn : ls.flatten = []) : l = [] := by
  have := Merged.perm h
  rw [hn] at this
  exact List.perm_nil.mp this

theorem resorted_delivers : Delivers resortedPlan [(1, 2), (0, 1)] := by
  -- the scan
  obtain ⟨r0, h0, e0, _, p0, _⟩ := Runs.of_kids (k := .distLeaf [[((0 : Nat), (1 : Nat)), (1, 2)]] [[[(0, 1)]], [[(1, 2)]], [[]]])
    (tc := .desired 3) (cs := []) (rs := []) (by simp) rfl (fun w ctx q => ⟨_, rfl⟩) (w := false) (ctx := ⟨0, 1⟩) (q := 0) rfl
  replace e0 : ∀ w ctx q, r0.1.exec w ctx q = (runKind (.distLeaf [[((0 : Nat), (1 : Nat)), (1, 2)]] [[[(0, 1)]], [[(1, 2)]], [[]]]) []).exec w ctx q := e0
  -- its head
  obtain ⟨l1, hl1⟩ := emits_exists (k := .hashRepart (fun _ : Nat × Nat => 0) 2 none) (a := fun _ => none) (by rintro _ ⟨⟩) [r0] false ⟨0, 1⟩ 0
  obtain ⟨r1, h1, _, _, _, b1⟩ := Runs.of_kids (k := .hashRepart (fun _ : Nat × Nat => 0) 2 none) (tc := .desired 3)
    (rs := [r0]) (cs := [.node (.distLeaf [[(0, 1), (1, 2)]] [[[(0, 1)]], [[(1, 2)]], [[]]]) (.desired 3) []]) (by
      intro i c r e e'
      match i with
      | 0 => cases e; cases e'; exact h0
      | i + 1 => simp at e) rfl (emits_exists (a := fun _ => none) (by rintro _ ⟨⟩) _) hl1
  replace b1 : r1.2 = r0.1 := b1
  -- the shuffle: what the second task sends comes first
  have hs : Emits (.shuffle (fun _ : Nat × Nat => 0) 2 3 1) [r1] false ⟨0, 1⟩ 0 [(1, 2), (0, 1)] := by
    show Interleaved _ _
    simp only [List.getD_cons_zero, b1, p0, e0]
    refine .step (i := 1) (x := (1, 2)) (t := []) rfl (fun _ _ _ _ => True.intro) ?_
    refine .step (i := 0) (x := (0, 1)) (t := []) rfl (fun _ _ _ _ => True.intro) ?_
    refine .done ?_
    decide +kernel
  obtain ⟨r2, h2, g2, e2, p2, _⟩ := Runs.of_kids (k := .shuffle (fun _ : Nat × Nat => 0) 2 3 1) (tc := .desired 3)
    (rs := [r1]) (cs := [.node (.hashRepart (fun _ => 0) 2 none) (.desired 3)
      [.node (.distLeaf [[(0, 1), (1, 2)]] [[[(0, 1)]], [[(1, 2)]], [[]]]) (.desired 3) []]]) (by
      intro i c r e e'
      match i with
      | 0 => cases e; cases e'; exact h1
      | i + 1 => simp at e) rfl (emits_exists (k := .shuffle (fun _ : Nat × Nat => 0) 2 3 1) (a := fun _ => none) True.intro _) hs
  -- its other partition is empty
  have e3 : r2.1.exec false ⟨0, 1⟩ 1 = [] := by
    have h : Interleaved _ _ := g2 false ⟨0, 1⟩ 1
    simp only [List.getD_cons_zero, b1, p0, e0] at h
    exact interleaved_nil h (by decide +kernel)
  have hm : Emits (.spm none bySecond) [r2] false ⟨0, 1⟩ 0 [(1, 2), (0, 1)] := by
    simp only [Emits, ↓reduceIte]
    refine ⟨_, ?_, rfl⟩
    show Merged _ _ _
    simp only [List.getD_cons_zero, p2]
    show Merged _ [r2.1.exec false ⟨0, 1⟩ 0, r2.1.exec false ⟨0, 1⟩ 1] _
    rw [e2, e3]
    refine .step (i := 0) (x := (1, 2)) (t := [(0, 1)]) rfl ?_ (.step (i := 0) (x := (0, 1)) (t := []) rfl ?_ (.done ?_))
    · intro j y t' e
      match j with
      | 0 => cases e; rfl
      | 1 => cases e
      | j + 2 => simp at e
    · intro j y t' e
      match j with
      | 0 => cases e; rfl
      | 1 => cases e
      | j + 2 => simp at e
    · intro l hl
      simp at hl
      exact hl
  obtain ⟨r3, h3, _, e4, _, _⟩ := Runs.of_kids (k := .spm none bySecond) (tc := .desired 3) (rs := [r2]) (cs := resortedPlan.children) (by
      intro i c r e e'
      match i with
      | 0 => cases e; cases e'; exact h2
      | i + 1 => simp [resortedPlan, Plan.children] at e) rfl
    (emits_exists (k := .spm none bySecond) (a := fun _ => some bySecond) ⟨bySecond_total, rfl, by rintro _ ⟨⟩⟩ _) hm
  exact ⟨r3, h3, e4.symm⟩

end Demo

/-- **C70** is false for hash repartitionings that preserve an order (`prefer_existing_sort`, or any with a single input
partition): the boundary the planner puts above them promises the order they promise
(`/repo/src/execution_plans/network_shuffle.rs:118-137`), but reads the tasks below as their rows arrive (`:221-251`). On a
single node the rows of this query always come sorted. Distributed they may come unsorted, through a
`SortPreservingMergeExec` that trusts its input. -/
theorem C70_order_preserving_repartition_false : ∃ (env : Env (Nat × Nat)) (p p' : Plan (Nat × Nat)) (le : Nat × Nat → Nat × Nat → Bool),
    EnvOk env ∧ ScaleKeepsOrder env ∧ Ordered true p (some le) ∧ plan env p = .ok (some p')
    ∧ (∀ l, Delivers p l → l.Pairwise fun x y => le x y = true)
    ∧ ∃ l, Delivers p' l ∧ ¬ l.Pairwise fun x y => le x y = true := by
  refine ⟨Demo.sess, Demo.resorted, _, Demo.bySecond, Demo.sess_ok, Demo.sess_keeps_order, Demo.resorted_ordered, Demo.resorted_plan, ?_,
    _, Demo.resorted_delivers, by decide⟩
  rintro l ⟨r, hr, rfl⟩
  exact Demo.resorted_ordered.sorted hr _ _ _

end DD.Tree
