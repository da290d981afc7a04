/-
Lemmas about rows, joins and the functions a plan is executed with.
-/
import Verif.Spec.Plan
import Verif.Lemmas.Lists
import Verif.Props.Routing

namespace DD.Tree

variable {Row : Type}

namespace RowEq

theorem refl (E : RowEq Row) (a : List Row) : E.eqv a a := E.ofPerm (.refl _)

theorem flatMap (E : RowEq Row) {α} {l : List α} {f g : α → List Row}
    (h : ∀ a ∈ l, E.eqv (f a) (g a)) : E.eqv (l.flatMap f) (l.flatMap g) := by
  induction l with
  | nil => exact E.refl _
  | cons a l ih =>
    simp only [List.flatMap_cons]
    exact E.append (h a (List.mem_cons_self ..)) (ih fun b hb => h b (List.mem_cons_of_mem _ hb))

theorem ofEq (E : RowEq Row) {a b : List Row} (h : a = b) : E.eqv a b := h ▸ E.refl a

end RowEq

theorem RowEq.sub_refl (E : RowEq Row) (A : List Row → Prop) : E.sub A A := fun a h => ⟨a, h, E.refl a⟩

theorem RowEq.sub_trans {E : RowEq Row} {A B C : List Row → Prop} (h : E.sub A B) (g : E.sub B C) : E.sub A C := by
  intro a ha
  obtain ⟨b, hb, e⟩ := h a ha
  obtain ⟨c, hc, e'⟩ := g b hb
  exact ⟨c, hc, E.trans e e'⟩

theorem RowEq.sub_of_eq (E : RowEq Row) {A B : List Row → Prop} (h : A = B) : E.sub A B := h ▸ E.sub_refl A

theorem RowEq.sub_mono {E E' : RowEq Row} (h : ∀ a b, E.eqv a b → E'.eqv a b) {A B : List Row → Prop} (g : E.sub A B) : E'.sub A B := by
  intro a ha
  obtain ⟨b, hb, e⟩ := g a ha
  exact ⟨b, hb, h _ _ e⟩

/-! ### Operators without choice -/

theorem HomFn.hom {E E' : RowEq Row} {f} (h : HomFn E E' f) : Hom E E' (.det f) where
  nil := by rintro _ rfl; exact h.nil
  append := by rintro a b _ _ rfl rfl; exact ⟨_, rfl, E'.symm (h.append a b)⟩
  congr := by rintro a b _ e rfl; exact ⟨_, rfl, h.congr a b e⟩

theorem Whole.of_fn {Es : List (RowEq Row)} {E' : RowEq Row} {f : List (List Row) → List Row}
    (h : ∀ as bs, SameInputs Es as bs → E'.eqv (f as) (f bs)) : Whole Es E' (.det f) := by
  rintro as bs _ e rfl; exact ⟨_, rfl, h as bs e⟩

theorem KeyedFn.keyed {Es : List (RowEq Row)} {E' : RowEq Row} {hs : List (Row → Nat)} {f} (h : KeyedFn Es E' hs f) :
    Keyed Es E' hs (.det f) where
  congr := .of_fn h.congr
  buckets := by
    intro n hn as hl xs hx
    refine ⟨_, rfl, E'.symm (E'.trans (h.buckets n hn as hl) (E'.ofEq ?_))⟩
    apply flatMap_congr'
    intro b hb
    exact (hx b (List.mem_range.mp hb)).symm

theorem Hom.flatMap {E E' : RowEq Row} {g} (h : Hom E E' g) {α} (l : List α) (f x : α → List Row)
    (hx : ∀ a ∈ l, g.may [f a] (x a)) : ∃ z, g.may [l.flatMap f] z ∧ E'.eqv (l.flatMap x) z := by
  induction l with
  | nil =>
    have := g.ok true ⟨0, 1⟩ 0 [[]]
    exact ⟨_, this, E'.symm (h.nil _ this)⟩
  | cons a l ih =>
    simp only [List.flatMap_cons]
    obtain ⟨z, hz, e⟩ := ih fun b hb => hx b (List.mem_cons_of_mem _ hb)
    obtain ⟨y, hy, e'⟩ := h.append _ _ _ _ (hx a List.mem_cons_self) hz
    exact ⟨y, hy, E'.trans (E'.append (E'.refl _) e) e'⟩

theorem SameInputs.of_getElem {Es : List (RowEq Row)} : ∀ {as bs : List (List Row)},
    as.length = Es.length → bs.length = Es.length →
    (∀ (i : Nat) E a b, Es[i]? = some E → as[i]? = some a → bs[i]? = some b → E.eqv a b) →
    SameInputs Es as bs := by
  induction Es with
  | nil =>
    intro as bs ha hb _
    cases as <;> cases bs <;> simp_all [SameInputs]
  | cons E Es ih =>
    intro as bs ha hb h
    cases as with
    | nil => simp at ha
    | cons a as =>
      cases bs with
      | nil => simp at hb
      | cons b bs =>
        refine ⟨h 0 E a b rfl rfl rfl, ih (by simpa using ha) (by simpa using hb) ?_⟩
        intro i E' a' b' h1 h2 h3
        exact h (i + 1) E' a' b' (by simpa using h1) (by simpa using h2) (by simpa using h3)

theorem SameInputs.get {Es : List (RowEq Row)} : ∀ {as bs : List (List Row)}, SameInputs Es as bs →
    as.length = Es.length ∧ bs.length = Es.length ∧
    (∀ (i : Nat) E a b, Es[i]? = some E → as[i]? = some a → bs[i]? = some b → E.eqv a b) := by
  induction Es with
  | nil =>
    intro as bs h
    cases as <;> cases bs <;> simp_all [SameInputs]
  | cons E Es ih =>
    intro as bs h
    cases as with
    | nil => simp [SameInputs] at h
    | cons a as =>
      cases bs with
      | nil => simp [SameInputs] at h
      | cons b bs =>
        obtain ⟨h1, h2⟩ := h
        obtain ⟨i1, i2, i3⟩ := ih h2
        refine ⟨by simp [i1], by simp [i2], ?_⟩
        intro i E' a' b' e1 e2 e3
        cases i with
        | zero => simp at e1 e2 e3; subst e1 e2 e3; exact h1
        | succ i => exact i3 i E' a' b' (by simpa using e1) (by simpa using e2) (by simpa using e3)

/-! ### Hash partitioned rows -/

theorem hashPart_perm (h : Row → Nat) (n : Nat) (hn : 0 < n) (l : List Row) :
    ((List.range n).flatMap fun b => hashPart h n b l).Perm l := by
  have := buckets_perm (fun r => h r % n) n l fun r _ => Nat.mod_lt _ hn
  refine (List.Perm.of_eq ?_).trans this
  apply flatMap_congr'
  intro b _
  unfold hashPart
  congr 1

theorem mem_hashPart {h : Row → Nat} {n b : Nat} {l : List Row} {x : Row} :
    x ∈ hashPart h n b l ↔ x ∈ l ∧ h x % n = b := by
  simp [hashPart]

theorem hashPart_append (h : Row → Nat) (n b : Nat) (l l' : List Row) :
    hashPart h n b (l ++ l') = hashPart h n b l ++ hashPart h n b l' := by
  simp [hashPart]

theorem hashPart_flatMap (h : Row → Nat) (n b : Nat) {α} (l : List α) (f : α → List Row) :
    hashPart h n b (l.flatMap f) = l.flatMap fun a => hashPart h n b (f a) := by
  induction l with
  | nil => rfl
  | cons a l ih => simp only [List.flatMap_cons, hashPart_append, ih]

/-- Rows that lie in their buckets: filtering the whole by one bucket gives back that part. -/
theorem hashPart_all {h : Row → Nat} {T P : Nat} {x : Nat → Nat → List Row}
    (hx : ∀ i < T, ∀ q < P, ∀ y ∈ x i q, h y % (T * P) = i * P + q) {i q : Nat} (hi : i < T) (hq : q < P) :
    hashPart h (T * P) (i * P + q) ((List.range T).flatMap fun i => (List.range P).flatMap (x i)) = x i q := by
  rw [hashPart_flatMap]
  have key : ∀ i' ∈ List.range T, hashPart h (T * P) (i * P + q) ((List.range P).flatMap (x i'))
      = if i = i' then x i q else [] := by
    intro i' hi'
    rw [hashPart_flatMap]
    have hi' := List.mem_range.mp hi'
    have : ∀ q' ∈ List.range P, hashPart h (T * P) (i * P + q) (x i' q')
        = if q = q' then (if i = i' then x i q else []) else [] := by
      intro q' hq'
      have hq' := List.mem_range.mp hq'
      by_cases hb : i = i' ∧ q = q'
      · obtain ⟨rfl, rfl⟩ := hb
        rw [if_pos rfl, if_pos rfl]
        unfold hashPart
        apply List.filter_eq_self.mpr
        intro y hy
        simp [hx i hi q hq y hy]
      · have : hashPart h (T * P) (i * P + q) (x i' q') = [] := by
          unfold hashPart
          apply List.filter_eq_nil_iff.mpr
          intro y hy
          rw [hx i' hi' q' hq' y hy]
          simp only [beq_iff_eq]
          intro he
          apply hb
          have hP : 0 < P := by omega
          have e1 : (i' * P + q') / P = (i * P + q) / P := by rw [he]
          have e2 : (i' * P + q') % P = (i * P + q) % P := by rw [he]
          rw [Nat.mul_comm i', Nat.mul_comm i, Nat.mul_add_div hP, Nat.mul_add_div hP,
            Nat.div_eq_of_lt hq, Nat.div_eq_of_lt hq'] at e1
          rw [Nat.mul_comm i', Nat.mul_comm i, Nat.mul_add_mod, Nat.mul_add_mod, Nat.mod_eq_of_lt hq,
            Nat.mod_eq_of_lt hq'] at e2
          exact ⟨by omega, e2.symm⟩
        rw [this]
        by_cases hqq : q = q'
        · rw [if_pos hqq, if_neg]
          intro hii; exact hb ⟨hii, hqq⟩
        · rw [if_neg hqq]
    rw [flatMap_congr' this, range_flatMap_ite, if_pos hq]
  rw [flatMap_congr' key, range_flatMap_ite, if_pos hi]

/-- An operator applied bucket by bucket. `xs` are the inputs: rows by task and partition. -/
theorem keyed_share {Es : List (RowEq Row)} {E' : RowEq Row} {hs : List (Row → Nat)} {g}
    (hk : Keyed Es E' hs g) {T P : Nat} (hT : 0 < T) (hP : 0 < P) (xs : List (Nat → Nat → List Row))
    (ds : List (List Row)) (hl : xs.length = hs.length) (hE : xs.length = Es.length)
    (hd : xs.length = ds.length)
    (hu : ∀ (c : Nat) x d E, xs[c]? = some x → ds[c]? = some d → Es[c]? = some E →
      E.eqv ((List.range T).flatMap fun i => (List.range P).flatMap (x i)) d)
    (hb' : ∀ (c : Nat) x h, xs[c]? = some x → hs[c]? = some h →
      ∀ i < T, ∀ q < P, ∀ y ∈ x i q, h y % (T * P) = i * P + q)
    (ys : Nat → Nat → List Row) (hy : ∀ i < T, ∀ q < P, g.may (xs.map fun x => x i q) (ys i q)) :
    ∃ z, g.may ds z ∧ E'.eqv ((List.range T).flatMap fun i => (List.range P).flatMap (ys i)) z := by
  have h1 : SameInputs Es (xs.map fun x => (List.range T).flatMap fun i => (List.range P).flatMap (x i)) ds :=
    SameInputs.of_getElem (by simp [hE]) (by omega) (by
      intro c E a d e1 e2 e3
      rw [List.getElem?_map] at e2
      cases hx : xs[c]? with
      | none => rw [hx] at e2; simp at e2
      | some x =>
        rw [hx] at e2
        simp only [Option.map_some, Option.some.injEq] at e2
        subst e2
        exact hu c x d E hx e3 e1)
  obtain ⟨z, hz, e⟩ := hk.buckets (P * T) (Nat.mul_pos hP hT)
    (xs.map fun x => (List.range T).flatMap fun i => (List.range P).flatMap (x i)) (by simpa using hl)
    (fun b => ys (b / P) (b % P)) (by
      intro b hb
      have hi : b / P < T := Nat.div_lt_of_lt_mul hb
      have hq : b % P < P := Nat.mod_lt _ hP
      have : List.zipWith (fun h a => hashPart h (P * T) b a) hs
          (xs.map fun x => (List.range T).flatMap fun i => (List.range P).flatMap (x i))
          = xs.map fun x => x (b / P) (b % P) := by
        apply List.ext_getElem?
        intro c
        rw [List.getElem?_zipWith, List.getElem?_map, List.getElem?_map]
        cases hx : xs[c]? with
        | none =>
          have : hs[c]? = none := by
            rw [List.getElem?_eq_none_iff] at hx ⊢
            omega
          simp [this]
        | some x =>
          cases hh : hs[c]? with
          | none =>
            rw [List.getElem?_eq_none_iff] at hh
            have := (List.getElem?_eq_some_iff.mp hx).1
            omega
          | some h =>
            simp only [Option.map_some]
            congr 1
            have := hashPart_all (hb' c x h hx hh) hi hq
            rw [show b / P * P + b % P = b by rw [Nat.mul_comm]; exact Nat.div_add_mod b P, Nat.mul_comm T P] at this
            exact this
      rw [this]
      exact hy _ hi _ hq)
  obtain ⟨y, hy', e'⟩ := hk.congr _ _ _ h1 hz
  refine ⟨y, hy', E'.trans (E'.ofEq ?_) (E'.trans e e')⟩
  rw [range_mul_flatMap T P]
  apply flatMap_congr'
  intro i hi
  apply flatMap_congr'
  intro q hq
  have hq := List.mem_range.mp hq
  rw [Nat.mul_add_div hP, Nat.div_eq_of_lt hq, Nat.mul_add_mod, Nat.mod_eq_of_lt hq, Nat.add_zero]

/-! ### Joins -/

theorem any_perm {α} {a b : List α} (h : a.Perm b) (f : α → Bool) : a.any f = b.any f := by
  rw [Bool.eq_iff_iff]
  simp only [List.any_eq_true]
  constructor
  · rintro ⟨x, hx, hf⟩; exact ⟨x, h.mem_iff.mp hx, hf⟩
  · rintro ⟨x, hx, hf⟩; exact ⟨x, h.mem_iff.mpr hx, hf⟩

section
variable (s : JoinSpec Row)

theorem pairs_perm {a a' b b' : List Row} (h : a.Perm a') (g : b.Perm b') :
    (pairs s a b).Perm (pairs s a' b') := by
  unfold pairs
  refine (flatMap_perm_congr fun l _ => (g.filter _).map _).trans ?_
  exact h.flatMap_right _

theorem padLeft_perm {a a' b b' : List Row} (h : a.Perm a') (g : b.Perm b') :
    (padLeft s a b).Perm (padLeft s a' b') := by
  unfold padLeft
  simp only [any_perm g]
  exact (h.filter _).map _

theorem padRight_perm {a a' b b' : List Row} (h : a.Perm a') (g : b.Perm b') :
    (padRight s a b).Perm (padRight s a' b') := by
  unfold padRight
  simp only [any_perm h]
  exact (g.filter _).map _

theorem joinRows_perm (hu : s.Unordered) {a a' b b' : List Row} (h : a.Perm a') (g : b.Perm b') :
    (joinRows s a b).Perm (joinRows s a' b') := by
  unfold joinRows
  cases hn : s.nullAware with
  | some f => exact hu f hn a a' b b' h g
  | none =>
    simp only
    cases s.jt <;> simp only
    · exact pairs_perm s h g
    · exact (pairs_perm s h g).append (padLeft_perm s h g)
    · exact (pairs_perm s h g).append (padRight_perm s h g)
    · exact (pairs_perm s h g).append ((padLeft_perm s h g).append (padRight_perm s h g))
    · simp only [any_perm g]; exact h.filter _
    · simp only [any_perm h]; exact g.filter _
    · simp only [any_perm g]; exact h.filter _
    · simp only [any_perm h]; exact g.filter _
    · simp only [any_perm g]; exact h.map _
    · simp only [any_perm h]; exact g.map _

theorem unordered_of_none {s : JoinSpec Row} (h : s.nullAware = none) : s.Unordered := by
  intro f hf; rw [h] at hf; cases hf

theorem pairs_right_nil (b : List Row) : pairs s b [] = [] := by
  unfold pairs
  simp [flatMap_nil']

theorem pairs_right_append (b x y : List Row) : (pairs s b (x ++ y)).Perm (pairs s b x ++ pairs s b y) := by
  unfold pairs
  simp only [List.filter_append, List.map_append]
  exact flatMap_append_perm _ _ _

theorem pairs_left_append (x y b : List Row) : pairs s (x ++ y) b = pairs s x b ++ pairs s y b := by
  unfold pairs
  simp

theorem padRight_append (b x y : List Row) : padRight s b (x ++ y) = padRight s b x ++ padRight s b y := by
  unfold padRight
  simp

theorem padLeft_append (x y b : List Row) : padLeft s (x ++ y) b = padLeft s x b ++ padLeft s y b := by
  unfold padLeft
  simp

/-- **C09**, the reason: with a build side every task has in full, a safe join can be computed for any part of
the probe side separately. -/
theorem joinRows_probe_nil (hs : s.safe = true) (b : List Row) : joinRows s b [] = [] := by
  simp only [JoinSpec.safe, Bool.and_eq_true, Option.isNone_iff_eq_none] at hs
  unfold joinRows
  rw [hs.2]
  simp only
  cases hj : s.jt <;> simp [hj, JoinType.broadcastSafe] at hs <;> simp only
  · exact pairs_right_nil s b
  · simp [pairs_right_nil, padRight]
  · rfl
  · rfl
  · rfl

theorem joinRows_probe_append (hs : s.safe = true) (b x y : List Row) :
    (joinRows s b (x ++ y)).Perm (joinRows s b x ++ joinRows s b y) := by
  simp only [JoinSpec.safe, Bool.and_eq_true, Option.isNone_iff_eq_none] at hs
  unfold joinRows
  rw [hs.2]
  simp only
  cases hj : s.jt <;> simp [hj, JoinType.broadcastSafe] at hs <;> simp only
  · exact pairs_right_append s b x y
  · rw [padRight_append]
    refine ((pairs_right_append s b x y).append_right _).trans ?_
    simp only [List.append_assoc]
    refine List.Perm.append_left _ ?_
    rw [← List.append_assoc, ← List.append_assoc]
    exact List.perm_append_comm.append_right _
  · simp
  · simp
  · simp

theorem joinRows_probe_flatMap (hs : s.safe = true) (b : List Row) {α} (l : List α) (f : α → List Row) :
    (joinRows s b (l.flatMap f)).Perm (l.flatMap fun a => joinRows s b (f a)) := by
  induction l with
  | nil => simp [joinRows_probe_nil s hs]
  | cons a l ih =>
    simp only [List.flatMap_cons]
    exact (joinRows_probe_append s hs b _ _).trans (ih.append_left _)

theorem safe_unordered {s : JoinSpec Row} (hs : s.safe = true) : s.Unordered := by
  simp only [JoinSpec.safe, Bool.and_eq_true, Option.isNone_iff_eq_none] at hs
  exact unordered_of_none hs.2

/-! Bucket-wise joins. -/

/-- A function of the left rows, one at a time, that looks at the right rows that may match. -/
theorem left_buckets (he : s.Equi) (n : Nat) (hn : 0 < n) (F : List Row → List Row → List Row)
    (hF0 : ∀ b, F [] b = []) (hF : ∀ x y b, F (x ++ y) b = F x b ++ F y b)
    (hFp : ∀ x y b, x.Perm y → (F x b).Perm (F y b))
    (hFc : ∀ l b b', b.filter (s.on l) = b'.filter (s.on l) → F [l] b = F [l] b') (ls rs : List Row) :
    (F ls rs).Perm ((List.range n).flatMap fun b => F (hashPart s.lk n b ls) (hashPart s.rk n b rs)) := by
  have hmap : ∀ (B : List Nat) (f : Nat → List Row), F (B.flatMap f) rs = B.flatMap fun b => F (f b) rs := by
    intro B f
    induction B with
    | nil => exact hF0 _
    | cons b B ih => simp only [List.flatMap_cons, hF, ih]
  refine (hFp _ _ rs (hashPart_perm s.lk n hn ls).symm).trans ?_
  rw [hmap]
  refine List.Perm.of_eq (flatMap_congr' ?_)
  intro b _
  have : ∀ l' : List Row, (∀ l ∈ l', s.lk l % n = b) → F l' rs = F l' (hashPart s.rk n b rs) := by
    intro l'
    induction l' with
    | nil => intro _; rw [hF0, hF0]
    | cons l l' ih =>
      intro h
      rw [show l :: l' = [l] ++ l' from rfl, hF, hF, ih fun x hx => h x (List.mem_cons_of_mem _ hx)]
      congr 1
      apply hFc
      unfold hashPart
      rw [List.filter_filter]
      apply List.filter_congr
      intro r _
      cases hon : s.on l r with
      | false => simp
      | true =>
        have := he l r hon
        rw [← this, h l (List.mem_cons_self ..)]
        simp
  exact this _ fun l hl => (mem_hashPart.mp hl).2

theorem right_buckets (he : s.Equi) (n : Nat) (hn : 0 < n) (F : List Row → List Row → List Row)
    (hF0 : ∀ b, F b [] = []) (hF : ∀ x y b, F b (x ++ y) = F b x ++ F b y)
    (hFp : ∀ x y b, x.Perm y → (F b x).Perm (F b y))
    (hFc : ∀ r b b', b.filter (s.on · r) = b'.filter (s.on · r) → F b [r] = F b' [r]) (ls rs : List Row) :
    (F ls rs).Perm ((List.range n).flatMap fun b => F (hashPart s.lk n b ls) (hashPart s.rk n b rs)) := by
  have := left_buckets { s with on := fun a b => s.on b a, lk := s.rk, rk := s.lk }
    (fun l r h => (he r l h).symm) n hn (fun a b => F b a) hF0 hF hFp hFc rs ls
  exact this

theorem any_of_filter {α} {f : α → Bool} {a b : List α} (h : a.filter f = b.filter f) : a.any f = b.any f := by
  rw [Bool.eq_iff_iff]
  simp only [List.any_eq_true]
  constructor
  · rintro ⟨x, hx, hf⟩
    have : x ∈ b.filter f := h ▸ List.mem_filter.mpr ⟨hx, hf⟩
    exact ⟨x, (List.mem_filter.mp this).1, hf⟩
  · rintro ⟨x, hx, hf⟩
    have : x ∈ a.filter f := h ▸ List.mem_filter.mpr ⟨hx, hf⟩
    exact ⟨x, (List.mem_filter.mp this).1, hf⟩

/-- An equi-join can be computed bucket by bucket of hash partitioned inputs, whatever its type. -/
theorem joinRows_buckets (he : s.Equi) (hn : s.nullAware = none) (n : Nat) (h0 : 0 < n) (ls rs : List Row) :
    (joinRows s ls rs).Perm
      ((List.range n).flatMap fun b => joinRows s (hashPart s.lk n b ls) (hashPart s.rk n b rs)) := by
  have hpairs := left_buckets s he n h0 (pairs s) (fun _ => rfl) (pairs_left_append s)
    (fun x y b h => pairs_perm s h (.refl _)) (fun l b b' h => by simp [pairs, h]) ls rs
  have hleft := left_buckets s he n h0 (padLeft s) (fun _ => rfl) (padLeft_append s)
    (fun x y b h => padLeft_perm s h (.refl _))
    (fun l b b' h => by simp [padLeft, any_of_filter h, List.filter_cons]) ls rs
  have hright := right_buckets s he n h0 (padRight s) (fun _ => rfl) (fun x y b => padRight_append s b x y)
    (fun x y b h => padRight_perm s (.refl _) h)
    (fun l b b' h => by simp [padRight, any_of_filter h, List.filter_cons]) ls rs
  unfold joinRows
  rw [hn]
  simp only
  cases s.jt <;> simp only
  · exact hpairs
  · exact (hpairs.append hleft).trans (flatMap_append_perm _ _ _).symm
  · exact (hpairs.append hright).trans (flatMap_append_perm _ _ _).symm
  · refine (hpairs.append (hleft.append hright)).trans ?_
    refine (List.Perm.append_left _ (flatMap_append_perm _ _ _).symm).trans ?_
    exact (flatMap_append_perm _ _ _).symm
  · exact left_buckets s he n h0 (fun ls rs => ls.filter fun l => rs.any (s.on l)) (fun _ => rfl)
      (fun x y b => by simp) (fun x y b h => h.filter _)
      (fun l b b' h => by simp [List.filter_cons, any_of_filter h]) ls rs
  · exact right_buckets s he n h0 (fun ls rs => rs.filter fun r => ls.any (s.on · r)) (fun _ => rfl)
      (fun x y b => by simp) (fun x y b h => h.filter _)
      (fun l b b' h => by simp [List.filter_cons, any_of_filter h]) ls rs
  · exact left_buckets s he n h0 (fun ls rs => ls.filter fun l => !rs.any (s.on l)) (fun _ => rfl)
      (fun x y b => by simp) (fun x y b h => h.filter _)
      (fun l b b' h => by simp [List.filter_cons, any_of_filter h]) ls rs
  · exact right_buckets s he n h0 (fun ls rs => rs.filter fun r => !ls.any (s.on · r)) (fun _ => rfl)
      (fun x y b => by simp) (fun x y b h => h.filter _)
      (fun l b b' h => by simp [List.filter_cons, any_of_filter h]) ls rs
  · exact left_buckets s he n h0 (fun ls rs => ls.map fun l => s.mark l (rs.any (s.on l))) (fun _ => rfl)
      (fun x y b => by simp) (fun x y b h => h.map _)
      (fun l b b' h => by simp [any_of_filter h]) ls rs
  · exact right_buckets s he n h0 (fun ls rs => rs.map fun r => s.mark r (ls.any (s.on · r))) (fun _ => rfl)
      (fun x y b => by simp) (fun x y b h => h.map _)
      (fun l b b' h => by simp [any_of_filter h]) ls rs

/-- A partitioned equi-join is a keyed operator. -/
theorem join_keyed (he : s.Equi) (hn : s.nullAware = none) :
    Keyed [.perm, .perm] .perm [s.lk, s.rk] (.det fun as => joinRows s (as.getD 0 []) (as.getD 1 [])) :=
  KeyedFn.keyed <| by
  refine ⟨?_, ?_⟩
  · intro as bs h
    obtain ⟨h1, h2, h3⟩ := h.get
    match as, bs, h1, h2 with
    | [a, a'], [b, b'], _, _ =>
      exact joinRows_perm s (unordered_of_none hn) (h3 0 _ _ _ rfl rfl rfl) (h3 1 _ _ _ rfl rfl rfl)
  · intro n h0 as hl
    match as, hl with
    | [a, a'], _ => exact joinRows_buckets s he hn n h0 a a'

/-- Exchanging the inputs of a join. -/
theorem pairs_swap (a b : List Row) : (pairs s.swap b a).Perm (pairs s a b) := by
  have e : ∀ x y, pairs s x y = x.flatMap fun l => y.flatMap fun r =>
      if s.on l r then [s.comb (some l) (some r)] else [] := by
    intro x y
    unfold pairs
    apply flatMap_congr'
    intro l _
    induction y with
    | nil => rfl
    | cons r y ih =>
      rw [List.filter_cons]
      cases hon : s.on l r <;> simp [ih, hon]
  have e' : pairs s.swap b a = b.flatMap fun r => a.flatMap fun l =>
      if s.on l r then [s.comb (some l) (some r)] else [] := by
    unfold pairs
    apply flatMap_congr'
    intro r _
    simp only [JoinSpec.swap]
    clear e
    induction a with
    | nil => rfl
    | cons l a ih =>
      rw [List.filter_cons]
      cases hon : s.on l r <;> simp [ih, hon]
  rw [e, e']
  exact flatMap_swap_perm _ _ _

theorem joinRows_swap (a b : List Row) : (joinRows s.swap b a).Perm (joinRows s a b) := by
  unfold joinRows
  cases hn : s.nullAware with
  | some f => simp [JoinSpec.swap, hn]
  | none =>
    have hj : s.swap.jt = s.jt.swap := rfl
    have hnn : s.swap.nullAware = none := by simp [JoinSpec.swap, hn]
    rw [hnn]
    simp only [hj]
    cases s.jt <;> simp only [JoinType.swap]
    · exact pairs_swap s a b
    · exact (pairs_swap s a b).append (.refl _)
    · exact (pairs_swap s a b).append (.refl _)
    · exact (pairs_swap s a b).append List.perm_append_comm
    all_goals exact .refl _

end

end DD.Tree
