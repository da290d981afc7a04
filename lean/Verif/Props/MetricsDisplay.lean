/-
C69: EXPLAIN ANALYZE writes, next to every node, what each task recorded for it.
-/
import Verif.Spec.MetricsDisplay
import Verif.Spec.MetricsRewrite
import Verif.Props.WorkerSession
import Mathlib.Data.String.Basic
import Mathlib.Data.List.Chain
import Mathlib.Data.List.Nodup

namespace DD.MetricsDisplay

open DD.Metrics

variable {V : Type} {K : Type}

/-! ### Task numbers -/

theorem toDigits_eq (n : Nat) : Nat.toDigits 10 n = Session.printNat n := by
  induction n using Nat.strongRecOn with
  | _ n ih =>
    unfold Session.printNat
    by_cases h : n < 10
    · rw [Nat.toDigits_of_lt_base h]
      by_cases h0 : n = 0
      · subst h0; rfl
      · rw [if_neg h0, Nat.digits_of_lt 10 n h0 h]; rfl
    · rw [Nat.toDigits_of_base_le (by omega) (by omega), ih (n / 10) (by omega), if_neg (by omega),
        Nat.digits_def' (by omega) (by omega)]
      unfold Session.printNat
      rw [if_neg (by omega)]
      simp

theorem parseU64_toString {n : Nat} (h : n < 2 ^ 64) : parseU64 (toString n) = some n := by
  unfold parseU64
  have : (toString n).toList = Session.printNat n := by
    rw [← toDigits_eq, Nat.toString_eq_ofList_toDigits]; simp
  rw [this, show Session.printNat n = Session.printNat (⟨n, h⟩ : Fin (2 ^ 64)).val from rfl, Session.parseUsize_print]
  rfl

theorem OfTask.parse {m : Metric V} {t : Option Nat} (h : OfTask m t) : (taskLabel m).bind parseU64 = t := by
  rw [h.1]
  cases t with
  | none => rfl
  | some n => exact parseU64_toString (h.2 n rfl)

theorem OfTask.unique {m : Metric V} {t u : Option Nat} (h : OfTask m t) (h' : OfTask m u) : t = u := by
  rw [← h.parse, h'.parse]

theorem OfTask.label {m n : Metric V} {t : Option Nat} (h : OfTask m t) : OfTask n t ↔ taskLabel n = taskLabel m := by
  constructor
  · intro h'; rw [h.1, h'.1]
  · intro e; exact ⟨e ▸ h.1, h.2⟩

/-! ### Aggregation -/

variable (vals : Values V)

theorem enter_new (m : Metric V) : ∀ E : List (Key × Metric V), keyOf vals m ∉ E.map (·.1) →
    enter vals m E = (do
      let v ← vals.aggregate (vals.empty m.value) m.value
      .ok (E ++ [(keyOf vals m, ⟨v, none, labelsOf (keyOf vals m)⟩)]))
  | [], _ => by rfl
  | (k, a) :: E, h => by
    simp only [List.map_cons, List.mem_cons, not_or] at h
    rw [enter, if_neg (fun e => h.1 e.symm), enter_new m E h.2]
    cases vals.aggregate (vals.empty m.value) m.value <;> rfl

theorem enter_old (m : Metric V) (a : Metric V) (E2 : List (Key × Metric V)) : ∀ E1 : List (Key × Metric V),
    keyOf vals m ∉ E1.map (·.1) →
    enter vals m (E1 ++ (keyOf vals m, a) :: E2) = (do
      let v ← vals.aggregate a.value m.value
      .ok (E1 ++ (keyOf vals m, { a with value := v }) :: E2))
  | [], _ => by rw [List.nil_append, enter, if_pos rfl]; rfl
  | (k, b) :: E1, h => by
    simp only [List.map_cons, List.mem_cons, not_or] at h
    rw [List.cons_append, enter, if_neg (fun e => h.1 e.symm), enter_old m a E2 E1 h.2]
    cases vals.aggregate a.value m.value <;> rfl

open Classical in
/-- The metrics with the given key. -/
noncomputable def withKey (ms : List (Metric V)) (k : Key) : List V :=
  (ms.filter fun m => decide (keyOf vals m = k)).map (·.value)

/-- What the map has after the metrics `ms`. -/
structure Entered (kind : V → K) (ms : List (Metric V)) (E : List (Key × Metric V)) : Prop where
  nodup : (E.map (·.1)).Nodup
  keys : ∀ k, k ∈ E.map (·.1) ↔ ∃ m ∈ ms, keyOf vals m = k
  value : ∀ k a, (k, a) ∈ E → ∃ v, a = ⟨v, none, labelsOf k⟩ ∧ Total vals (withKey vals ms k) v
  kinds : ∀ k a, (k, a) ∈ E → ∀ m ∈ ms, keyOf vals m = k → kind a.value = kind m.value

theorem withKey_snoc_ne (ms : List (Metric V)) (m : Metric V) (k : Key) (h : keyOf vals m ≠ k) :
    withKey vals (ms ++ [m]) k = withKey vals ms k := by
  simp [withKey, List.filter_append, h]

theorem withKey_snoc_eq (ms : List (Metric V)) (m : Metric V) :
    withKey vals (ms ++ [m]) (keyOf vals m) = withKey vals ms (keyOf vals m) ++ [m.value] := by
  simp [withKey, List.filter_append]

theorem total_snoc {vs : List V} {v w x : V} (h : Total vals vs v) (e : vals.aggregate v w = .ok x) :
    Total vals (vs ++ [w]) x := by
  obtain ⟨a, rest, rfl, hf⟩ := h
  refine ⟨a, rest ++ [w], rfl, ?_⟩
  rw [List.foldlM_append, hf]
  simp [bind, Except.bind, e, pure, Except.pure]

theorem enter_spec {kind : V → K} (hv : vals.Lawful kind) {ms : List (Metric V)} {m : Metric V} {E}
    (hk : ∀ n ∈ ms, vals.name n.value = vals.name m.value → kind n.value = kind m.value)
    (h : Entered vals kind ms E) : ∃ E', enter vals m E = .ok E' ∧ Entered vals kind (ms ++ [m]) E' := by
  by_cases hm : keyOf vals m ∈ E.map (·.1)
  · obtain ⟨n, hn, hkey⟩ := (h.keys _).1 hm
    obtain ⟨⟨k, a⟩, hE, hka⟩ := List.mem_map.1 hm
    replace hka : k = keyOf vals m := hka
    subst hka
    have hnm : vals.name n.value = vals.name m.value := congrArg Prod.fst hkey
    have ha : kind a.value = kind m.value := (h.kinds _ _ hE n hn hkey).trans (hk n hn hnm)
    obtain ⟨c, hc, hck⟩ := hv.aggregate _ _ ha
    obtain ⟨v, rfl, hT⟩ := h.value _ _ hE
    obtain ⟨E1, E2, rfl⟩ := List.append_of_mem hE
    have hnd := h.nodup
    rw [List.map_append, List.map_cons, List.nodup_append] at hnd
    have h1 : keyOf vals m ∉ E1.map (·.1) := fun hx => hnd.2.2 _ hx _ (List.mem_cons_self ..) rfl
    have h2 : keyOf vals m ∉ E2.map (·.1) := (List.nodup_cons.1 hnd.2.1).1
    have hother : ∀ k a, (k, a) ∈ E1 ++ E2 → k ≠ keyOf vals m := by
      rintro k a hx rfl
      rcases List.mem_append.1 hx with hx | hx
      · exact h1 (List.mem_map_of_mem (f := Prod.fst) hx)
      · exact h2 (List.mem_map_of_mem (f := Prod.fst) hx)
    refine ⟨_, by rw [enter_old vals m _ E2 E1 h1, hc]; rfl, ?_, ?_, ?_, ?_⟩
    · have := h.nodup; simpa using this
    · intro k
      have := h.keys k
      simp only [List.map_append, List.map_cons, List.mem_append, List.mem_cons, List.not_mem_nil, or_false] at this ⊢
      rw [this]
      constructor
      · rintro ⟨x, hx, e⟩; exact ⟨x, .inl hx, e⟩
      · rintro ⟨x, hx | rfl, e⟩
        · exact ⟨x, hx, e⟩
        · exact ⟨n, hn, hkey.trans e⟩
    · intro k b hb
      by_cases hkk : k = keyOf vals m
      · subst hkk
        have : b = ⟨c, none, labelsOf (keyOf vals m)⟩ := by
          rcases List.mem_append.1 hb with hb | hb
          · exact absurd rfl (hother _ _ (List.mem_append_left _ hb))
          · rcases List.mem_cons.1 hb with hb | hb
            · exact congrArg Prod.snd hb
            · exact absurd rfl (hother _ _ (List.mem_append_right _ hb))
        subst this
        exact ⟨c, rfl, by rw [withKey_snoc_eq]; exact total_snoc vals hT hc⟩
      · have : (k, b) ∈ E1 ++ (keyOf vals m, (⟨v, none, labelsOf (keyOf vals m)⟩ : Metric V)) :: E2 := by
          rcases List.mem_append.1 hb with hb | hb
          · exact List.mem_append_left _ hb
          · rcases List.mem_cons.1 hb with hb | hb
            · exact absurd (congrArg Prod.fst hb) hkk
            · exact List.mem_append_right _ (List.mem_cons_of_mem _ hb)
        obtain ⟨w, hw, hT'⟩ := h.value k b this
        exact ⟨w, hw, by rw [withKey_snoc_ne _ _ _ _ (Ne.symm hkk)]; exact hT'⟩
    · intro k b hb x hx hxk
      by_cases hkk : k = keyOf vals m
      · subst hkk
        have : b.value = c := by
          rcases List.mem_append.1 hb with hb | hb
          · exact absurd rfl (hother _ _ (List.mem_append_left _ hb))
          · rcases List.mem_cons.1 hb with hb | hb
            · rw [show b = _ from congrArg Prod.snd hb]
            · exact absurd rfl (hother _ _ (List.mem_append_right _ hb))
        rw [this, hck, ha]
        rcases List.mem_append.1 hx with hx | hx
        · exact (hk x hx (congrArg Prod.fst hxk)).symm
        · rw [List.mem_singleton.1 hx]
      · have hb' : (k, b) ∈ E1 ++ (keyOf vals m, (⟨v, none, labelsOf (keyOf vals m)⟩ : Metric V)) :: E2 := by
          rcases List.mem_append.1 hb with hb | hb
          · exact List.mem_append_left _ hb
          · rcases List.mem_cons.1 hb with hb | hb
            · exact absurd (congrArg Prod.fst hb) hkk
            · exact List.mem_append_right _ (List.mem_cons_of_mem _ hb)
        rcases List.mem_append.1 hx with hx | hx
        · exact h.kinds k b hb' x hx hxk
        · rw [List.mem_singleton.1 hx] at hxk; exact absurd hxk.symm hkk
  · obtain ⟨c, hc, hck⟩ := hv.aggregate _ _ (hv.empty m.value)
    have hck : kind c = kind m.value := hck.trans (hv.empty _)
    have hnone : ∀ x ∈ ms, keyOf vals x ≠ keyOf vals m := fun x hx e => hm ((h.keys _).2 ⟨x, hx, e⟩)
    have hnil : withKey vals ms (keyOf vals m) = [] := by
      simp only [withKey, List.map_eq_nil_iff, List.filter_eq_nil_iff, decide_eq_true_eq]
      exact hnone
    have hold : ∀ k a, (k, a) ∈ E → k ≠ keyOf vals m := by
      rintro k a hx rfl
      exact hm (List.mem_map_of_mem (f := Prod.fst) hx)
    refine ⟨_, by rw [enter_new vals m E hm, hc]; rfl, ?_, ?_, ?_, ?_⟩
    · rw [List.map_append, List.nodup_append]
      refine ⟨h.nodup, by simp, ?_⟩
      rintro a ha b hb rfl
      simp at hb
      exact hm (hb ▸ ha)
    · intro k
      have := h.keys k
      simp only [List.map_append, List.map_cons, List.map_nil, List.mem_append, List.mem_cons, List.not_mem_nil, or_false] at this ⊢
      rw [this]
      constructor
      · rintro (⟨x, hx, e⟩ | rfl)
        · exact ⟨x, .inl hx, e⟩
        · exact ⟨m, .inr rfl, rfl⟩
      · rintro ⟨x, hx | rfl, e⟩
        · exact .inl ⟨x, hx, e⟩
        · exact .inr e.symm
    · intro k b hb
      rcases List.mem_append.1 hb with hb | hb
      · obtain ⟨w, hw, hT⟩ := h.value k b hb
        exact ⟨w, hw, by rw [withKey_snoc_ne _ _ _ _ (hold k b hb).symm]; exact hT⟩
      · have hb := List.mem_singleton.1 hb
        cases hb
        refine ⟨c, rfl, ?_⟩
        rw [withKey_snoc_eq, hnil]
        exact ⟨m.value, [], rfl, by simp [bind, Except.bind, hc, pure, Except.pure]⟩
    · intro k b hb x hx hxk
      rcases List.mem_append.1 hb with hb | hb
      · rcases List.mem_append.1 hx with hx | hx
        · exact h.kinds k b hb x hx hxk
        · rw [List.mem_singleton.1 hx] at hxk; exact absurd hxk.symm (hold k b hb)
      · have hb := List.mem_singleton.1 hb
        cases hb
        rcases List.mem_append.1 hx with hx | hx
        · exact absurd hxk (hnone x hx)
        · rw [List.mem_singleton.1 hx]; exact hck

theorem enterAll_spec {kind : V → K} (hv : vals.Lawful kind) : ∀ (rest ms : List (Metric V)) (E),
    (∀ m ∈ ms ++ rest, ∀ n ∈ ms ++ rest, vals.name m.value = vals.name n.value → kind m.value = kind n.value) →
    Entered vals kind ms E → ∃ E', enterAll vals rest E = .ok E' ∧ Entered vals kind (ms ++ rest) E'
  | [], ms, E, _, h => ⟨E, rfl, by simpa using h⟩
  | m :: rest, ms, E, hk, h => by
    obtain ⟨E1, e1, h1⟩ := enter_spec vals hv (m := m)
      (fun n hn => hk n (List.mem_append_left _ hn) m (List.mem_append_right _ (List.mem_cons_self ..))) h
    obtain ⟨E2, e2, h2⟩ := enterAll_spec hv rest (ms ++ [m]) E1 (by simpa using hk) h1
    exact ⟨E2, by rw [enterAll, e1]; exact e2, by simpa using h2⟩

/-! ### Sorting -/

/-- The order of the metrics after sorting. -/
def sortedBefore (a b : Nat × String × Option Nat) : Prop :=
  a.1 < b.1 ∨ a.1 = b.1 ∧ (a.2.1 < b.2.1 ∨ a.2.1 = b.2.1 ∧ Before a.2.2 b.2.2)

def sortKeyOf (m : Metric V) : Nat × String × Option Nat :=
  (vals.sortKey m.value, vals.name m.value, (taskLabel m).bind parseU64)

theorem taskLe_total (a b : Option Nat) : (taskLe a b || taskLe b a) = true := by
  cases a <;> cases b <;> simp [taskLe]; omega

theorem taskLe_trans (a b c : Option Nat) (h : taskLe a b = true) (h' : taskLe b c = true) : taskLe a c = true := by
  cases a <;> cases b <;> cases c <;> simp [taskLe] at *; omega

theorem sortLe_iff (a b : Metric V) : sortLe vals a b = true ↔
    sortKeyOf vals a = sortKeyOf vals b ∨ sortedBefore (sortKeyOf vals a) (sortKeyOf vals b) := by
  unfold sortLe sortKeyOf sortedBefore
  generalize (taskLabel a).bind parseU64 = ta
  generalize (taskLabel b).bind parseU64 = tb
  have : taskLe ta tb = true ↔ ta = tb ∨ Before ta tb := by
    cases ta <;> cases tb <;> simp [taskLe, Before]; omega
  simp only [Bool.or_eq_true, decide_eq_true_eq, Bool.and_eq_true, beq_iff_eq, this, Prod.mk.injEq]
  constructor
  · rintro (h | ⟨h1, h2 | ⟨h2, h3 | h3⟩⟩)
    · exact .inr (.inl h)
    · exact .inr (.inr ⟨h1, .inl h2⟩)
    · exact .inl ⟨h1, h2, h3⟩
    · exact .inr (.inr ⟨h1, .inr ⟨h2, h3⟩⟩)
  · rintro (⟨h1, h2, h3⟩ | h | ⟨h1, h2 | ⟨h2, h3⟩⟩)
    · exact .inr ⟨h1, .inr ⟨h2, .inl h3⟩⟩
    · exact .inl h
    · exact .inr ⟨h1, .inl h2⟩
    · exact .inr ⟨h1, .inr ⟨h2, .inr h3⟩⟩

theorem before_trans {a b c : Option Nat} (h : Before a b) (h' : Before b c) : Before a c := by
  cases a <;> cases b <;> cases c <;> simp [Before] at *; omega

theorem sortedBefore_trans {a b c} (h : sortedBefore a b) (h' : sortedBefore b c) : sortedBefore a c := by
  obtain ⟨a1, a2, a3⟩ := a
  obtain ⟨b1, b2, b3⟩ := b
  obtain ⟨c1, c2, c3⟩ := c
  simp only [sortedBefore] at *
  rcases h with h | ⟨rfl, h | ⟨rfl, h⟩⟩ <;> rcases h' with h' | ⟨rfl, h' | ⟨rfl, h'⟩⟩
  · exact .inl (by omega)
  · exact .inl h
  · exact .inl h
  · exact .inl h'
  · exact .inr ⟨rfl, .inl (lt_trans h h')⟩
  · exact .inr ⟨rfl, .inl h⟩
  · exact .inl h'
  · exact .inr ⟨rfl, .inl h'⟩
  · exact .inr ⟨rfl, .inr ⟨rfl, before_trans h h'⟩⟩

theorem sortLe_trans (a b c : Metric V) (h : sortLe vals a b = true) (h' : sortLe vals b c = true) : sortLe vals a c = true := by
  rw [sortLe_iff] at *
  rcases h with h | h <;> rcases h' with h' | h'
  · exact .inl (h.trans h')
  · exact .inr (h ▸ h')
  · exact .inr (h' ▸ h)
  · exact .inr (sortedBefore_trans h h')

theorem sortLe_total (a b : Metric V) : (sortLe vals a b || sortLe vals b a) = true := by
  rw [Bool.or_eq_true, sortLe_iff, sortLe_iff]
  generalize sortKeyOf vals a = x
  generalize sortKeyOf vals b = y
  obtain ⟨a1, a2, a3⟩ := x
  obtain ⟨b1, b2, b3⟩ := y
  simp only [sortedBefore, Prod.mk.injEq]
  rcases Nat.lt_trichotomy a1 b1 with h | rfl | h
  · exact .inl (.inr (.inl h))
  · rcases lt_trichotomy a2 b2 with h | rfl | h
    · exact .inl (.inr (.inr ⟨rfl, .inl h⟩))
    · have : a3 = b3 ∨ Before a3 b3 ∨ Before b3 a3 := by
        cases a3 <;> cases b3 <;> simp [Before]; omega
      rcases this with rfl | h | h
      · exact .inl (.inl ⟨rfl, rfl, rfl⟩)
      · exact .inl (.inr (.inr ⟨rfl, .inr ⟨rfl, h⟩⟩))
      · exact .inr (.inr (.inr ⟨rfl, .inr ⟨rfl, h⟩⟩))
    · exact .inr (.inr (.inr ⟨rfl, .inl h⟩))
  · exact .inr (.inr (.inl h))

/-! ### Grouping -/

/-- What is left of a metric: name, label, value. -/
def itemOf (m : Metric V) : String × Option String × V := (vals.name m.value, taskLabel m, m.value)

def Group.items (g : Group V) : List (String × Option String × V) := g.entries.map fun e => (g.name, e)

/-- What holds of the groups so far, in either direction. -/
structure Groups (gs : List (Group V)) : Prop where
  first : ∀ g ∈ gs, ∃ e es, g.entries = e :: es ∧ g.hasTask = e.1.isSome
  chain : gs.IsChain fun a b => a.name ≠ b.name

theorem groupLoop_spec : ∀ (ms : List (Metric V)) (gs : List (Group V)), Groups gs →
    Groups (groupLoop vals ms gs) ∧
    (groupLoop vals ms gs).flatMap Group.items = gs.reverse.flatMap Group.items ++ ms.map (itemOf vals)
  | [], gs, h => by
    rw [groupLoop]
    refine ⟨⟨fun g hg => h.first g (List.mem_reverse.1 hg), ?_⟩, by simp⟩
    rw [List.isChain_reverse]
    exact h.chain.imp fun _ _ hab => hab.symm
  | m :: ms, [], h => by
    rw [groupLoop]
    obtain ⟨h1, h2⟩ := groupLoop_spec ms [⟨vals.name m.value, (taskLabel m).isSome, [(taskLabel m, m.value)]⟩]
      ⟨by simp, by simp⟩
    exact ⟨h1, by rw [h2]; simp [Group.items, itemOf]⟩
  | m :: ms, g :: gs, h => by
    rw [groupLoop]
    by_cases hn : g.name = vals.name m.value
    · rw [if_pos hn]
      obtain ⟨h1, h2⟩ := groupLoop_spec ms ({ g with entries := g.entries ++ [(taskLabel m, m.value)] } :: gs)
        ⟨by
          intro x hx
          rcases List.mem_cons.1 hx with rfl | hx
          · obtain ⟨e, es, h3, h4⟩ := h.first g (List.mem_cons_self ..)
            exact ⟨e, es ++ [(taskLabel m, m.value)], by rw [h3]; rfl, h4⟩
          · exact h.first x (List.mem_cons_of_mem _ hx), by
          have := h.chain
          cases gs with
          | nil => simp
          | cons b gs => simpa [List.isChain_cons_cons] using this⟩
      exact ⟨h1, by rw [h2]; simp [Group.items, itemOf, hn]⟩
    · rw [if_neg hn]
      obtain ⟨h1, h2⟩ := groupLoop_spec ms
        (⟨vals.name m.value, (taskLabel m).isSome, [(taskLabel m, m.value)]⟩ :: g :: gs)
        ⟨by
          intro x hx
          rcases List.mem_cons.1 hx with rfl | hx
          · exact ⟨_, [], rfl, rfl⟩
          · exact h.first x hx, by
          rw [List.isChain_cons_cons]
          exact ⟨fun e => hn e.symm, h.chain⟩⟩
      exact ⟨h1, by rw [h2]; simp [Group.items, itemOf]⟩

def itemKey (x : String × Option String × V) : Nat × String × Option Nat :=
  (vals.sortKey x.2.2, x.1, x.2.1.bind parseU64)

/-- The lines that are written out. -/
def linesOf (gs : List (Group V)) : List (Line V) :=
  gs.map fun g => ⟨g.name, g.entries.map fun e => (e.1.bind parseU64, e.2)⟩

theorem mem_linesOf (gs : List (Group V)) (name : String) (t : Option Nat) (v : V) :
    (∃ l ∈ linesOf gs, l.name = name ∧ (t, v) ∈ l.values) ↔
      ∃ lab, (name, lab, v) ∈ gs.flatMap Group.items ∧ lab.bind parseU64 = t := by
  simp only [linesOf, List.mem_map, List.mem_flatMap, Group.items]
  constructor
  · rintro ⟨_, ⟨g, hg, rfl⟩, rfl, h⟩
    obtain ⟨⟨lab, w⟩, he, e⟩ := List.mem_map.1 h
    cases e
    exact ⟨lab, ⟨g, hg, (lab, w), he, rfl⟩, rfl⟩
  · rintro ⟨lab, ⟨g, hg, ⟨lab', w⟩, he, e⟩, rfl⟩
    cases e
    exact ⟨_, ⟨g, hg, rfl⟩, rfl, List.mem_map.2 ⟨_, he, rfl⟩⟩

/-- Sort key of the first entry. -/
def rank (g : Group V) : Nat := ((g.entries.head?).map fun e => vals.sortKey e.2).getD 0

/-- Neighbours have different names, and the order of the names is transitive. -/
theorem pairwise_rank : ∀ gs : List (Group V), (∀ g ∈ gs, ∃ e ∈ g.entries, vals.sortKey e.2 = rank vals g) →
    gs.Pairwise (fun a b => ∀ x ∈ a.items, ∀ y ∈ b.items, sortedBefore (itemKey vals x) (itemKey vals y)) →
    gs.IsChain (fun a b => a.name ≠ b.name) →
    gs.Pairwise fun a b => rank vals a < rank vals b ∨ rank vals a = rank vals b ∧ a.name < b.name
  | [], _, _, _ => .nil
  | [a], _, _, _ => by simp
  | a :: b :: gs, h, hp, hc => by
    rw [List.isChain_cons_cons] at hc
    rw [List.pairwise_cons] at hp
    have ih := pairwise_rank (b :: gs) (fun g hg => h g (List.mem_cons_of_mem _ hg)) hp.2 hc.2
    have hab : rank vals a < rank vals b ∨ rank vals a = rank vals b ∧ a.name < b.name := by
      obtain ⟨x, hx, ex⟩ := h a (List.mem_cons_self ..)
      obtain ⟨y, hy, ey⟩ := h b (List.mem_cons_of_mem _ (List.mem_cons_self ..))
      have := hp.1 b (List.mem_cons_self ..) _ (List.mem_map.2 ⟨x, hx, rfl⟩) _ (List.mem_map.2 ⟨y, hy, rfl⟩)
      rw [← ex, ← ey]
      rcases this with h1 | ⟨h1, h2 | ⟨h2, -⟩⟩
      · exact .inl h1
      · exact .inr ⟨h1, h2⟩
      · exact absurd h2 hc.1
    refine List.pairwise_cons.2 ⟨fun c hcm => ?_, ih⟩
    rcases List.mem_cons.1 hcm with rfl | hcm
    · exact hab
    · rcases (List.pairwise_cons.1 ih).1 c hcm with h1 | ⟨h1, h2⟩ <;> rcases hab with h3 | ⟨h3, h4⟩
      · exact .inl (by omega)
      · exact .inl (by omega)
      · exact .inl (by omega)
      · exact .inr ⟨by omega, lt_trans h4 h2⟩

/-- The metrics after sorting, as far as the groups depend on it. -/
structure Sorted (kind : V → K) (ms L : List (Metric V)) : Prop where
  mem : ∀ name t v, (∃ a ∈ L, vals.name a.value = name ∧ OfTask a t ∧ a.value = v) ↔
    (∃ m ∈ ms, vals.name m.value = name ∧ vals.timestamp m.value = false ∧ OfTask m t) ∧ Total vals (recorded vals ms name t) v
  sorted : L.Pairwise fun a b => sortedBefore (sortKeyOf vals a) (sortKeyOf vals b)
  labels : ∀ a ∈ L, ∃ t, OfTask a t
  kinds : ∀ a ∈ L, ∃ m ∈ ms, vals.name m.value = vals.name a.value ∧ kind m.value = kind a.value

theorem says_of_sorted {kind : V → K} (hv : vals.Lawful kind) {ms L : List (Metric V)} (hr : Regular vals kind ms)
    (h : Sorted vals kind ms L) : Says vals ms (linesOf (groupLoop vals L [])) := by
  obtain ⟨hg, hflat⟩ := groupLoop_spec vals L [] ⟨by simp, by simp⟩
  generalize groupLoop vals L [] = gs at hg hflat
  simp only [List.reverse_nil, List.flatMap_nil, List.nil_append] at hflat
  have hpair : (gs.flatMap Group.items).Pairwise fun x y => sortedBefore (itemKey vals x) (itemKey vals y) := by
    rw [hflat, List.pairwise_map]; exact h.sorted
  rw [List.pairwise_flatMap] at hpair
  -- Metrics of the same name are sorted alike.
  have hsk : ∀ x ∈ gs.flatMap Group.items, ∀ m ∈ ms, vals.name m.value = x.1 → vals.sortKey m.value = vals.sortKey x.2.2 := by
    intro x hx m hm e
    rw [hflat] at hx
    obtain ⟨a, ha, rfl⟩ := List.mem_map.1 hx
    obtain ⟨n, hn, e1, e2⟩ := h.kinds a ha
    have := hr.kinds m hm n hn (e.trans e1.symm)
    exact (hv.same _ _ (this.trans e2)).2.1
  have hany : ∀ x ∈ gs.flatMap Group.items, ∃ m ∈ ms, vals.name m.value = x.1 := by
    intro x hx
    rw [hflat] at hx
    obtain ⟨a, ha, rfl⟩ := List.mem_map.1 hx
    obtain ⟨n, hn, e1, -⟩ := h.kinds a ha
    exact ⟨n, hn, e1⟩
  have hmem : ∀ g ∈ gs, ∀ e ∈ g.entries, (g.name, e) ∈ gs.flatMap Group.items := fun g hg e he =>
    List.mem_flatMap.2 ⟨g, hg, List.mem_map.2 ⟨e, he, rfl⟩⟩
  refine ⟨?_, ?_, ?_, ?_⟩
  · intro name t v
    rw [mem_linesOf, ← h.mem, hflat]
    simp only [List.mem_map, itemOf, Prod.mk.injEq]
    constructor
    · rintro ⟨_, ⟨a, ha, e1, rfl, e2⟩, rfl⟩
      obtain ⟨t, ht⟩ := h.labels a ha
      exact ⟨a, ha, e1, by rw [ht.parse]; exact ht, e2⟩
    · rintro ⟨a, ha, e1, ht, e2⟩
      exact ⟨_, ⟨a, ha, e1, rfl, e2⟩, ht.parse⟩
  · rintro _ hl
    obtain ⟨g, hgm, rfl⟩ := List.mem_map.1 hl
    obtain ⟨e, es, h1, -⟩ := hg.first g hgm
    simp [h1]
  · rintro _ hl
    obtain ⟨g, hgm, rfl⟩ := List.mem_map.1 hl
    have h1 := hpair.1 g hgm
    rw [Group.items, List.pairwise_map] at h1
    rw [List.pairwise_map]
    refine h1.imp_of_mem fun {a b} ha hb hab => ?_
    obtain ⟨m, hm, e⟩ := hany _ (hmem g hgm a ha)
    have e1 := hsk _ (hmem g hgm a ha) m hm e
    have e2 := hsk _ (hmem g hgm b hb) m hm e
    simp only at e1 e2
    rcases hab with hab | ⟨-, hab | ⟨-, hab⟩⟩
    · simp only [itemKey] at hab; omega
    · exact absurd hab (lt_irrefl g.name)
    · exact hab
  · have hrank := pairwise_rank vals gs (fun g hgm => by
      obtain ⟨e, es, h1, -⟩ := hg.first g hgm
      exact ⟨e, by rw [h1]; exact List.mem_cons_self .., by simp [rank, h1]⟩) hpair.2 hg.chain
    unfold linesOf
    rw [List.pairwise_map]
    refine hrank.imp_of_mem fun {a b} ha hb hab m hm n hn em en => ?_
    obtain ⟨e, es, h1, -⟩ := hg.first a ha
    obtain ⟨e', es', h1', -⟩ := hg.first b hb
    have e1 := hsk _ (hmem a ha e (by rw [h1]; exact List.mem_cons_self ..)) m hm em
    have e2 := hsk _ (hmem b hb e' (by rw [h1']; exact List.mem_cons_self ..)) n hn en
    simp only [rank, h1, h1', List.head?_cons, Option.map_some, Option.getD_some] at hab
    simp only at e1 e2
    rw [e1, e2]
    exact hab

/-! ### The text -/

theorem taskLabel_labelsOf (v : V) (k : Key) : taskLabel (⟨v, none, labelsOf k⟩ : Metric V) = k.2 := by
  obtain ⟨n, _ | l⟩ := k <;> simp [taskLabel, labelsOf]

theorem recorded_eq (ms : List (Metric V)) {m : Metric V} {t : Option Nat} (h : OfTask m t) :
    recorded vals ms (vals.name m.value) t = withKey vals ms (keyOf vals m) := by
  unfold recorded withKey
  congr 1
  apply List.filter_congr
  intro x _
  simp only [keyOf, Prod.mk.injEq, h.label, decide_eq_decide]

theorem total_unique {vs : List V} {v w : V} (h : Total vals vs v) (h' : Total vals vs w) : v = w := by
  obtain ⟨a, r, rfl, e⟩ := h
  obtain ⟨b, r', e', e2⟩ := h'
  cases e'
  rw [e] at e2
  exact Except.ok.inj e2

theorem sorted_of_entered {kind : V → K} (hv : vals.Lawful kind) {ms : List (Metric V)} (hr : Regular vals kind ms) {E}
    (hE : Entered vals kind ms E) {A : List (Metric V)} (hA : A.Perm (E.map (·.2))) :
    Sorted vals kind ms ((A.mergeSort (sortLe vals)).filter fun m => !vals.timestamp m.value) := by
  -- The entries of the map are metrics themselves.
  have hkey : ∀ k a, (k, a) ∈ E → keyOf vals a = k ∧ ∃ m ∈ ms, keyOf vals m = k ∧ kind a.value = kind m.value := by
    intro k a h
    obtain ⟨m, hm, e⟩ := (hE.keys k).1 (List.mem_map.2 ⟨_, h, rfl⟩)
    have hk := hE.kinds k a h m hm e
    obtain ⟨v, rfl, -⟩ := hE.value k a h
    refine ⟨?_, m, hm, e, hk⟩
    rw [keyOf, taskLabel_labelsOf, (hv.same _ _ hk).1]
    rw [← e]; rfl
  have hmem : ∀ a, a ∈ (A.mergeSort (sortLe vals)).filter (fun m => !vals.timestamp m.value) ↔
      (keyOf vals a, a) ∈ E ∧ vals.timestamp a.value = false := by
    intro a
    rw [List.mem_filter, List.mem_mergeSort, hA.mem_iff, List.mem_map, Bool.not_eq_true']
    constructor
    · rintro ⟨⟨⟨k, b⟩, hb, rfl⟩, ht⟩
      exact ⟨by rw [(hkey k b hb).1]; exact hb, ht⟩
    · rintro ⟨h, ht⟩
      exact ⟨⟨_, h, rfl⟩, ht⟩
  have hlab : ∀ k a, (k, a) ∈ E → ∃ t, OfTask a t := by
    intro k a h
    obtain ⟨e, m, hm, e', -⟩ := hkey k a h
    obtain ⟨t, ht⟩ := hr.labels m hm
    refine ⟨t, ht.label.2 ?_⟩
    have := e.trans e'.symm
    exact congrArg Prod.snd this
  refine ⟨?_, ?_, fun a ha => hlab _ a ((hmem a).1 ha).1, ?_⟩
  · intro name t v
    constructor
    · rintro ⟨a, ha, rfl, ht, rfl⟩
      obtain ⟨hin, hts⟩ := (hmem a).1 ha
      obtain ⟨-, m, hm, e, hk⟩ := hkey _ a hin
      obtain ⟨v, hav, hT⟩ := hE.value _ a hin
      obtain ⟨h1, -, h3⟩ := hv.same _ _ hk
      refine ⟨⟨m, hm, h1.symm, h3 ▸ hts, ht.label.2 (congrArg Prod.snd e)⟩, ?_⟩
      rw [recorded_eq vals ms ht]
      rw [hav] at hT ⊢
      exact hT
    · rintro ⟨⟨m, hm, rfl, hts, ht⟩, hT⟩
      rw [recorded_eq vals ms ht] at hT
      obtain ⟨⟨k, a⟩, hin, e⟩ := List.mem_map.1 ((hE.keys _).2 ⟨m, hm, rfl⟩)
      replace e : k = keyOf vals m := e
      subst e
      have e := (hkey _ a hin).1
      have hk := hE.kinds _ a hin m hm rfl
      obtain ⟨h1, -, h3⟩ := hv.same _ _ hk
      obtain ⟨w, haw, hTw⟩ := hE.value _ a hin
      refine ⟨a, (hmem a).2 ⟨by rw [e]; exact hin, h3.trans hts⟩, h1, ht.label.2 (congrArg Prod.snd e), ?_⟩
      rw [haw]
      exact total_unique vals hTw hT
  · have h1 := List.pairwise_mergeSort (le := sortLe vals) (sortLe_trans vals) (sortLe_total vals) A
    have h2 : (E.map (·.2)).Pairwise fun a b => sortKeyOf vals a ≠ sortKeyOf vals b := by
      rw [List.pairwise_map]
      have := List.pairwise_map.1 hE.nodup
      refine this.imp_of_mem fun {x y} hx hy hne heq => hne ?_
      obtain ⟨k, a⟩ := x
      obtain ⟨l, b⟩ := y
      obtain ⟨t, ht⟩ := hlab k a hx
      obtain ⟨u, hu⟩ := hlab l b hy
      simp only [sortKeyOf, ht.parse, hu.parse, Prod.mk.injEq] at heq
      obtain ⟨-, hn, rfl⟩ := heq
      show k = l
      rw [← (hkey k a hx).1, ← (hkey l b hy).1]
      exact Prod.ext hn (ht.1.trans hu.1.symm)
    have h3 : (A.mergeSort (sortLe vals)).Pairwise fun a b => sortKeyOf vals a ≠ sortKeyOf vals b :=
      ((List.mergeSort_perm A _).trans hA).symm.pairwise h2 fun {a b} h => h.symm
    have h4 := h1.and h3
    refine (h4.imp fun {a b} h => ?_).filter _
    rcases (sortLe_iff vals a b).1 h.1 with h5 | h5
    · exact absurd h5 h.2
    · exact h5
  · intro a ha
    obtain ⟨hin, -⟩ := (hmem a).1 ha
    obtain ⟨e', m, hm, e, hk⟩ := hkey _ a hin
    exact ⟨m, hm, congrArg Prod.fst e, hk.symm⟩

/-- The groups are written as the lines are. -/
theorem text_lines {ms L : List (Metric V)} {kind : V → K} (h : Sorted vals kind ms L) (ha : Apart vals ms)
    (hs : Says vals ms (linesOf (groupLoop vals L []))) :
    ", ".intercalate ((groupLoop vals L []).map (render vals)) = text vals (linesOf (groupLoop vals L [])) := by
  obtain ⟨hg, hflat⟩ := groupLoop_spec vals L [] ⟨by simp, by simp⟩
  generalize groupLoop vals L [] = gs at hg hflat hs
  simp only [List.reverse_nil, List.flatMap_nil, List.nil_append] at hflat
  unfold text
  rw [linesOf, List.map_map]
  congr 1
  apply List.map_congr_left
  intro g hgm
  obtain ⟨e, es, h1, h2⟩ := hg.first g hgm
  -- The entries are metrics of `L`, and those are as in `ms`.
  have hent : ∀ x ∈ g.entries, ∃ t, x.1 = Option.map toString t ∧ x.1.bind parseU64 = t ∧
      ∃ m ∈ ms, vals.name m.value = g.name ∧ OfTask m t := by
    intro x hx
    have : (g.name, x) ∈ gs.flatMap Group.items := List.mem_flatMap.2 ⟨g, hgm, List.mem_map.2 ⟨x, hx, rfl⟩⟩
    rw [hflat] at this
    obtain ⟨a, haL, e⟩ := List.mem_map.1 this
    obtain ⟨t, ht⟩ := h.labels a haL
    have e1 : vals.name a.value = g.name := congrArg Prod.fst e
    have e2 : taskLabel a = x.1 := congrArg (fun y => y.2.1) e
    obtain ⟨⟨m, hm, hmn, -, hmt⟩, -⟩ := (h.mem g.name t a.value).1 ⟨a, haL, e1, ht, rfl⟩
    exact ⟨t, by rw [← e2, ht.1], by rw [← e2, ht.parse], m, hm, hmn, hmt⟩
  obtain ⟨t, te, tp, m, hm, hmn, hmt⟩ := hent e (by rw [h1]; exact List.mem_cons_self ..)
  show render vals g = Line.text vals _
  cases t with
  | none =>
    -- No entry has a task, so there is only one.
    have hes : es = [] := by
      cases es with
      | nil => rfl
      | cons e2 es =>
        obtain ⟨u, -, up, n, hn, hnn, hnt⟩ := hent e2 (by rw [h1]; simp)
        have := (ha m hm n hn (hmn.trans hnn.symm) hmt).unique hnt
        subst this
        have := hs.tasks _ (List.mem_map.2 ⟨g, hgm, rfl⟩)
        simp only [h1, List.map_cons, List.pairwise_cons] at this
        have := this.1 _ (List.mem_cons_self ..)
        rw [tp, up] at this
        exact this.elim
    subst hes
    obtain ⟨lab, v⟩ := e
    simp only [Option.map_none] at te
    subst te
    simp [render, h1, h2, Line.text, renderEntry]
  | some n =>
    have hall : ∀ x ∈ g.entries, ∃ k : Nat, x.1 = some (toString k) ∧ x.1.bind parseU64 = some k := by
      intro x hx
      obtain ⟨u, ue, up, m', hm', hmn', hmt'⟩ := hent x hx
      cases u with
      | some k => exact ⟨k, ue, up⟩
      | none => exact absurd ((ha m' hm' m hm (hmn'.trans hmn.symm) hmt').unique hmt) (by simp)
    have hb : g.hasTask = true := by rw [h2, te]; rfl
    have hentries : g.entries.map (renderEntry vals) = (g.entries.map fun e => (e.1.bind parseU64, e.2)).map fun x =>
        (match x.1 with | some t => toString t ++ ":" | none => "") ++ vals.print x.2 := by
      rw [List.map_map]
      apply List.map_congr_left
      intro x hx
      obtain ⟨k, e1, e2⟩ := hall x hx
      obtain ⟨lab, v⟩ := x
      simp only at e1 e2
      subst e1
      simp only [Function.comp_apply, renderEntry]
      rw [e2]
    unfold render Line.text
    simp only [hb, if_true, hentries]
    split
    · rename_i v hv
      simp only [h1, List.map_cons, List.cons.injEq, Prod.mk.injEq, tp] at hv
      exact absurd hv.1.1 (by simp)
    · rfl

/-- **C69.** Whatever order the map of the implementation has: the text written for a set of metrics is that of lines that say what
the metrics say. Asked of the metrics: those of one name are of one kind, and either all from tasks or none. -/
theorem C69_text_says_what_was_recorded_partial {kind : V → K} (hv : vals.Lawful kind) {ms : List (Metric V)}
    (hr : Regular vals kind ms) (ha : Apart vals ms) (order : List (Metric V) → List (Metric V)) (ho : ∀ l, (order l).Perm l) :
    ∃ ls, Says vals ms ls ∧ format vals order ms = .ok (text vals ls) := by
  obtain ⟨E, e, hE⟩ := enterAll_spec vals hv ms [] [] (by simpa using hr.kinds) ⟨by simp, by simp, by simp, by simp⟩
  rw [List.nil_append] at hE
  have h := sorted_of_entered vals hv hr hE (ho (E.map (·.2)))
  refine ⟨_, says_of_sorted vals hv hr h, ?_⟩
  rw [← text_lines vals h ha (says_of_sorted vals hv hr h)]
  unfold format aggregateByTask
  rw [e]
  rfl

/-- Two sorted lists with the same members are the same. -/
theorem eq_of_sorted {α : Type} {R : α → α → Prop} (ha : ∀ a b, R a b → R b a → False) {l l' : List α} (h : l.Pairwise R)
    (h' : l'.Pairwise R) (hm : ∀ a, a ∈ l ↔ a ∈ l') : l = l' := by
  have nd : ∀ {l : List α}, l.Pairwise R → l.Nodup := fun h => h.imp fun {a b} hab e => by
    subst e; exact ha a a hab hab
  exact List.Perm.eq_of_pairwise (fun a b _ _ hab hba => (ha a b hab hba).elim) h h'
    ((List.perm_ext_iff_of_nodup (nd h) (nd h')).2 hm)

theorem before_asymm (a b : Option Nat) (h : Before a b) (h' : Before b a) : False := by
  cases a <;> cases b <;> simp [Before] at *; omega

/-- **C69.** The lines are determined by the metrics: what is written does not depend on the order of the map. -/
theorem C69_lines_determined {ms : List (Metric V)} {l₁ l₂ : List (Line V)} (h₁ : Says vals ms l₁) (h₂ : Says vals ms l₂) :
    l₁ = l₂ := by
  have named : ∀ {ls}, Says vals ms ls → ∀ l ∈ ls, ∃ m ∈ ms, vals.name m.value = l.name := by
    intro ls h l hl
    obtain ⟨⟨t, v⟩, hx⟩ := List.exists_mem_of_ne_nil _ (h.nonempty l hl)
    obtain ⟨⟨m, hm, e, -⟩, -⟩ := (h.values l.name t v).1 ⟨l, hl, rfl, hx⟩
    exact ⟨m, hm, e⟩
  -- A name has one line.
  have one : ∀ {ls}, Says vals ms ls → ∀ a ∈ ls, ∀ b ∈ ls, a.name = b.name → a = b := by
    intro ls h a ha b hb e
    have hp : ls.Pairwise fun a b => a.name ≠ b.name := by
      refine h.names.imp_of_mem fun {a b} ha hb hab e => ?_
      obtain ⟨m, hm, em⟩ := named h a ha
      rcases hab m hm m hm em (em.trans e) with h1 | ⟨-, h1⟩
      · omega
      · rw [e] at h1; exact lt_irrefl _ h1
    exact List.inj_on_of_nodup_map (f := Line.name) (List.pairwise_map.2 hp) ha hb e
  have sub : ∀ {k₁ k₂}, Says vals ms k₁ → Says vals ms k₂ → ∀ l ∈ k₁, l ∈ k₂ := by
    intro k₁ k₂ h₁ h₂ l hl
    obtain ⟨⟨t, v⟩, hx⟩ := List.exists_mem_of_ne_nil _ (h₁.nonempty l hl)
    obtain ⟨l', hl', e, -⟩ := (h₂.values l.name t v).2 ((h₁.values l.name t v).1 ⟨l, hl, rfl, hx⟩)
    have : l.values = l'.values := by
      refine eq_of_sorted (fun a b => before_asymm a.1 b.1) (h₁.tasks l hl) (h₂.tasks l' hl') fun ⟨t, v⟩ => ⟨fun hx => ?_, fun hx => ?_⟩
      · obtain ⟨x, hx1, e1, hx2⟩ := (h₂.values l.name t v).2 ((h₁.values l.name t v).1 ⟨l, hl, rfl, hx⟩)
        rwa [one h₂ x hx1 l' hl' (e1.trans e.symm)] at hx2
      · obtain ⟨x, hx1, e1, hx2⟩ := (h₁.values l.name t v).2 ((h₂.values l.name t v).1 ⟨l', hl', e, hx⟩)
        rwa [one h₁ x hx1 l hl e1] at hx2
    have : l = l' := by
      cases l; cases l'
      simp only at e this
      subst e; subst this; rfl
    rw [this]; exact hl'
  -- Both are sorted by a relation that is asymmetric for names that occur.
  refine eq_of_sorted (R := fun a b => a ∈ l₁ ∧ b ∈ l₁ ∧ ∀ m ∈ ms, ∀ n ∈ ms, vals.name m.value = a.name → vals.name n.value = b.name →
    vals.sortKey m.value < vals.sortKey n.value ∨ vals.sortKey m.value = vals.sortKey n.value ∧ a.name < b.name) ?_
    (h₁.names.imp_of_mem fun ha hb h => ⟨ha, hb, h⟩)
    (h₂.names.imp_of_mem fun ha hb h => ⟨sub h₂ h₁ _ ha, sub h₂ h₁ _ hb, h⟩) fun l => ⟨sub h₁ h₂ l, sub h₂ h₁ l⟩
  rintro a b ⟨ha, hb, hab⟩ ⟨-, -, hba⟩
  obtain ⟨m, hm, em⟩ := named h₁ a ha
  obtain ⟨n, hn, en⟩ := named h₁ b hb
  rcases hab m hm n hn em en with h | ⟨h, h'⟩ <;> rcases hba n hn m hm en em with k | ⟨k, k'⟩
  · omega
  · omega
  · omega
  · exact lt_irrefl _ (lt_trans h' k')

/-- **C69.** The text is the same for every order. -/
theorem C69_text_determined_partial {kind : V → K} (hv : vals.Lawful kind) {ms : List (Metric V)}
    (hr : Regular vals kind ms) (ha : Apart vals ms) (order order' : List (Metric V) → List (Metric V))
    (ho : ∀ l, (order l).Perm l) (ho' : ∀ l, (order' l).Perm l) : format vals order ms = format vals order' ms := by
  obtain ⟨l₁, h₁, e₁⟩ := C69_text_says_what_was_recorded_partial vals hv hr ha order ho
  obtain ⟨l₂, h₂, e₂⟩ := C69_text_says_what_was_recorded_partial vals hv hr ha order' ho'
  rw [e₁, e₂, C69_lines_determined vals h₁ h₂]

/-! ### The metrics of a node -/

theorem taskLabel_annotate {m : Metric V} (h : ∀ l ∈ m.labels, l.1 ≠ "task_id") (i : Nat) :
    taskLabel (annotate i m) = some (toString i) := by
  have : m.labels.find? (fun l => l.1 == "task_id") = none := by
    rw [List.find?_eq_none]; intro l hl; simpa using h l hl
  simp [taskLabel, annotate, this]

theorem taskLabel_none {m : Metric V} (h : ∀ l ∈ m.labels, l.1 ≠ "task_id") : taskLabel m = none := by
  have : m.labels.find? (fun l => l.1 == "task_id") = none := by
    rw [List.find?_eq_none]; intro l hl; simpa using h l hl
  simp [taskLabel, this]

/-- What the tasks of a stage recorded for one node: no label is that of a task, and values of one name are of one kind. -/
structure Plain (kind : V → K) (tasks : Nat) (rec : Nat → Path → List (Metric V)) (y : Path) : Prop where
  bound : tasks ≤ 2 ^ 64
  labels : ∀ i < tasks, ∀ m ∈ rec i y, ∀ l ∈ m.labels, l.1 ≠ "task_id"
  kinds : ∀ i < tasks, ∀ j < tasks, ∀ m ∈ rec i y, ∀ n ∈ rec j y, vals.name m.value = vals.name n.value →
    kind m.value = kind n.value

/-- The values of the given name. -/
def named (ms : List (Metric V)) (name : String) : List V := (ms.map (·.value)).filter fun v => vals.name v == name

open DD.Tree DD.Tree.Rec

theorem mem_expected {Row : Type} (f : Format) (tasks : Nat) (c : Plan Row) (rec : Nat → Path → List (Metric V)) (y : Path)
    (m : Metric V) : m ∈ expected f tasks c rec y ↔
      ∃ i < tasks, Runs ⟨i, tasks⟩ c y ∧ ∃ n ∈ rec i y, m = shownFor f i n := by
  simp only [expected, List.mem_flatMap, List.mem_range]
  constructor
  · rintro ⟨i, hi, h⟩
    split at h
    · rename_i hr
      obtain ⟨n, hn, rfl⟩ := List.mem_map.1 h
      exact ⟨i, hi, hr, n, hn, rfl⟩
    · cases h
  · rintro ⟨i, hi, hr, n, hn, rfl⟩
    exact ⟨i, hi, by rw [if_pos hr]; exact List.mem_map_of_mem hn⟩

theorem shownFor_value (f : Format) (i : Nat) (m : Metric V) : (shownFor f i m).value = m.value := by
  cases f <;> rfl

theorem flatMap_range_one {α : Type} (f : Nat → List α) (i : Nat) : ∀ n, i < n → (∀ j < n, j ≠ i → f j = []) →
    (List.range n).flatMap f = f i
  | 0, h, _ => by omega
  | n + 1, h, hj => by
    rw [List.range_succ, List.flatMap_append, List.flatMap_singleton]
    by_cases e : i = n
    · subst e
      have : (List.range i).flatMap f = [] := by
        rw [List.flatMap_eq_nil_iff]; intro j hjm
        have := List.mem_range.1 hjm
        exact hj j (by omega) (by omega)
      rw [this, List.nil_append]
    · rw [flatMap_range_one f i n (by omega) fun j h => hj j (by omega), hj n (by omega) (Ne.symm e), List.append_nil]

/-- The tasks of a stage recorded `rec`, and the metrics are shown per task. **C69**: the text next to a node has, for each task
that runs the node and each name that is not a timestamp, the aggregation of what this task recorded under this name for this node,
and nothing else. -/
theorem C69_per_task_partial {Row : Type} {kind : V → K} (hv : vals.Lawful kind) (tasks : Nat) (c : Plan Row)
    (rec : Nat → Path → List (Metric V)) (y : Path) (hp : Plain vals kind tasks rec y)
    (order : List (Metric V) → List (Metric V)) (ho : ∀ l, (order l).Perm l) :
    ∃ ls, format vals order (expected .perTask tasks c rec y) = .ok (text vals ls) ∧
      Says vals (expected .perTask tasks c rec y) ls ∧
      ∀ name t v, (∃ l ∈ ls, l.name = name ∧ (t, v) ∈ l.values) ↔
        ∃ i, t = some i ∧ i < tasks ∧ Runs ⟨i, tasks⟩ c y ∧
          (∃ m ∈ rec i y, vals.name m.value = name ∧ vals.timestamp m.value = false) ∧ Total vals (named vals (rec i y) name) v := by
  have hof : ∀ i < tasks, ∀ n ∈ rec i y, OfTask (shownFor .perTask i n) (some i) := by
    intro i hi n hn
    refine ⟨taskLabel_annotate (hp.labels i hi n hn) i, ?_⟩
    rintro _ ⟨⟩
    exact Nat.lt_of_lt_of_le hi hp.bound
  have hr : Regular vals kind (expected .perTask tasks c rec y) := by
    constructor
    · intro m hm n hn e
      obtain ⟨i, hi, -, m', hm', rfl⟩ := (mem_expected ..).1 hm
      obtain ⟨j, hj, -, n', hn', rfl⟩ := (mem_expected ..).1 hn
      rw [shownFor_value, shownFor_value] at e ⊢
      exact hp.kinds i hi j hj m' hm' n' hn' e
    · intro m hm
      obtain ⟨i, hi, -, m', hm', rfl⟩ := (mem_expected ..).1 hm
      exact ⟨_, hof i hi m' hm'⟩
  have ha : Apart vals (expected .perTask tasks c rec y) := by
    intro m hm n hn e h
    obtain ⟨i, hi, -, m', hm', rfl⟩ := (mem_expected ..).1 hm
    cases h.unique (hof i hi m' hm')
  have hrec : ∀ i < tasks, Runs ⟨i, tasks⟩ c y → ∀ name,
      recorded vals (expected .perTask tasks c rec y) name (some i) = named vals (rec i y) name := by
    intro i hi hrun name
    classical
    unfold recorded expected
    rw [List.filter_flatMap, List.map_flatMap, flatMap_range_one _ i tasks hi]
    · rw [if_pos hrun]
      unfold named
      rw [List.filter_map, List.map_map, List.filter_map]
      have : ((fun x : Metric V => x.value) ∘ shownFor .perTask i) = (fun x : Metric V => x.value) := by
        funext m; exact shownFor_value ..
      rw [this]
      congr 1
      apply List.filter_congr
      intro m hm
      simp only [Function.comp_apply, shownFor_value, hof i hi m hm, and_true]
      by_cases h : vals.name m.value = name <;> simp [h]
    · intro j hj hne
      split
      · rw [List.map_eq_nil_iff, List.filter_eq_nil_iff]
        intro m hm h
        obtain ⟨n, hn, rfl⟩ := List.mem_map.1 hm
        have := (of_decide_eq_true h).2.unique (hof j hj n hn)
        exact hne (Option.some.inj this).symm
      · rfl
  obtain ⟨ls, hs, e⟩ := C69_text_says_what_was_recorded_partial vals hv hr ha order ho
  refine ⟨ls, e, hs, fun name t v => ?_⟩
  rw [hs.values name t v]
  constructor
  · rintro ⟨⟨m, hm, hn, hts, ht⟩, hT⟩
    obtain ⟨i, hi, hrun, m', hm', rfl⟩ := (mem_expected ..).1 hm
    have := ht.unique (hof i hi m' hm')
    subst this
    rw [shownFor_value] at hn hts
    exact ⟨i, rfl, hi, hrun, ⟨m', hm', hn, hts⟩, by rw [← hrec i hi hrun]; exact hT⟩
  · rintro ⟨i, rfl, hi, hrun, ⟨m, hm, hn, hts⟩, hT⟩
    refine ⟨⟨_, (mem_expected ..).2 ⟨i, hi, hrun, m, hm, rfl⟩, ?_, ?_, hof i hi m hm⟩, ?_⟩
    · rw [shownFor_value]; exact hn
    · rw [shownFor_value]; exact hts
    · rw [hrec i hi hrun]; exact hT

/-- **C69** for metrics that are not shown per task: one value for each name, the aggregation over all tasks that run the node. -/
theorem C69_aggregated_partial {Row : Type} {kind : V → K} (hv : vals.Lawful kind) (tasks : Nat) (c : Plan Row)
    (rec : Nat → Path → List (Metric V)) (y : Path) (hp : Plain vals kind tasks rec y)
    (order : List (Metric V) → List (Metric V)) (ho : ∀ l, (order l).Perm l) :
    ∃ ls, format vals order (expected .aggregated tasks c rec y) = .ok (text vals ls) ∧
      Says vals (expected .aggregated tasks c rec y) ls ∧
      ∀ name t v, (∃ l ∈ ls, l.name = name ∧ (t, v) ∈ l.values) ↔
        t = none ∧ (∃ i < tasks, Runs ⟨i, tasks⟩ c y ∧ ∃ m ∈ rec i y, vals.name m.value = name ∧ vals.timestamp m.value = false) ∧
          Total vals (named vals (expected .aggregated tasks c rec y) name) v := by
  have hof : ∀ m ∈ expected .aggregated tasks c rec y, OfTask m none := by
    intro m hm
    obtain ⟨i, hi, -, n, hn, e⟩ := (mem_expected ..).1 hm
    rw [show m = n from e]
    exact ⟨taskLabel_none (hp.labels i hi n hn), fun _ h => by cases h⟩
  have hr : Regular vals kind (expected .aggregated tasks c rec y) := by
    constructor
    · intro m hm n hn e
      obtain ⟨i, hi, -, m', hm', em⟩ := (mem_expected ..).1 hm
      obtain ⟨j, hj, -, n', hn', en⟩ := (mem_expected ..).1 hn
      rw [show m = m' from em, show n = n' from en] at e ⊢
      exact hp.kinds i hi j hj m' hm' n' hn' e
    · intro m hm; exact ⟨_, hof m hm⟩
  obtain ⟨ls, hs, e⟩ := C69_text_says_what_was_recorded_partial vals hv hr (fun _ _ n hn _ _ => hof n hn) order ho
  have hrec : ∀ name, recorded vals (expected .aggregated tasks c rec y) name none =
      named vals (expected .aggregated tasks c rec y) name := by
    intro name
    unfold recorded named
    rw [List.filter_map]
    congr 1
    apply List.filter_congr
    intro m hm
    simp only [Function.comp_apply, hof m hm, and_true]
    by_cases h : vals.name m.value = name <;> simp [h]
  refine ⟨ls, e, hs, fun name t v => ?_⟩
  rw [hs.values name t v]
  constructor
  · rintro ⟨⟨m, hm, hn, hts, ht⟩, hT⟩
    have := ht.unique (hof m hm)
    subst this
    obtain ⟨i, hi, hrun, m', hm', em⟩ := (mem_expected ..).1 hm
    rw [show m = m' from em] at hn hts
    exact ⟨rfl, ⟨i, hi, hrun, m', hm', hn, hts⟩, by rw [← hrec]; exact hT⟩
  · rintro ⟨rfl, ⟨i, hi, hrun, m, hm, hn, hts⟩, hT⟩
    have : m ∈ expected .aggregated tasks c rec y := (mem_expected ..).2 ⟨i, hi, hrun, m, hm, rfl⟩
    exact ⟨⟨m, this, hn, hts, hof m this⟩, by rw [hrec]; exact hT⟩

/-! ### Leaves and the header of a stage -/

theorem suffix_some (s : String) : suffix (some s) = ", metrics=[" ++ s ++ "]" := by
  unfold suffix
  by_cases h : s = ""
  · subst h; rfl
  · simp only [if_neg h]

/-- **C69**, leaves: next to the variant of the leaf that task `i` scans is what task `i` recorded. -/
theorem C69_leaf_variants_partial {kind : V → K} (hv : vals.Lawful kind) {ms : List (Metric V)} (hr : Regular vals kind ms)
    (order : List (Metric V) → List (Metric V)) (ho : ∀ l, (order l).Perm l) : ∀ n i : Nat,
    ∃ texts, leafTexts vals order ms i n = .ok texts ∧ texts.length = n ∧
      ∀ k < n, ∃ own : List (Metric V), (∀ m, m ∈ own ↔ m ∈ ms ∧ OfTask m (some (i + k))) ∧ own.Sublist ms ∧
        (own = [] ∧ texts[k]? = some ", metrics=[]" ∨
          own ≠ [] ∧ ∃ ls, Says vals own ls ∧ texts[k]? = some (", metrics=[" ++ text vals ls ++ "]"))
  | 0, i => ⟨[], rfl, rfl, fun k h => by omega⟩
  | n + 1, i => by
    obtain ⟨texts, e, hl, ht⟩ := C69_leaf_variants_partial hv hr order ho n (i + 1)
    have hmem : ∀ m, m ∈ byTask ms i ↔ m ∈ ms ∧ OfTask m (some i) := by
      intro m
      simp only [byTask, List.mem_filter, beq_iff_eq]
      refine and_congr_right fun hm => ?_
      obtain ⟨t, h⟩ := hr.labels m hm
      rw [h.parse]
      exact ⟨fun e => e ▸ h, fun h' => h.unique h'⟩
    have hsub : (byTask ms i).Sublist ms := List.filter_sublist ..
    have hreg : Regular vals kind (byTask ms i) :=
      ⟨fun m hm n hn => hr.kinds m (hsub.subset hm) n (hsub.subset hn), fun m hm => hr.labels m (hsub.subset hm)⟩
    have hap : Apart vals (byTask ms i) := fun m hm n hn _ h => by cases h.unique ((hmem m).1 hm).2
    obtain ⟨ls, hs, hf⟩ := C69_text_says_what_was_recorded_partial vals hv hreg hap order ho
    have step : ∀ text, leafText vals order (byTask ms i) = .ok text → leafTexts vals order ms i (n + 1) = .ok (text :: texts) := by
      intro text h
      rw [leafTexts, h, e]; rfl
    have rest : ∀ text : String, ∀ k < n + 1, k ≠ 0 → ∃ own : List (Metric V), (∀ m, m ∈ own ↔ m ∈ ms ∧ OfTask m (some (i + k))) ∧
        own.Sublist ms ∧ (own = [] ∧ (text :: texts)[k]? = some ", metrics=[]" ∨
          own ≠ [] ∧ ∃ ls, Says vals own ls ∧ (text :: texts)[k]? = some (", metrics=[" ++ DD.MetricsDisplay.text vals ls ++ "]")) := by
      intro text k hk h0
      obtain ⟨j, rfl⟩ := Nat.exists_eq_succ_of_ne_zero h0
      have := ht j (by omega)
      rw [show i + 1 + j = i + j.succ by omega] at this
      exact this
    cases hb : byTask ms i with
    | nil =>
      refine ⟨_, step _ (by rw [hb]; rfl), by simp [hl], fun k hk => ?_⟩
      by_cases h0 : k = 0
      · subst h0
        exact ⟨byTask ms i, hmem, hsub, .inl ⟨hb, rfl⟩⟩
      · exact rest _ k hk h0
    | cons a as =>
      refine ⟨_, step (", metrics=[" ++ text vals ls ++ "]") (by rw [hb] at hf ⊢; rw [leafText, hf, ← suffix_some]; rfl), by simp [hl], fun k hk => ?_⟩
      by_cases h0 : k = 0
      · subst h0
        exact ⟨byTask ms i, hmem, hsub, .inr ⟨by simp [hb], ls, hs, rfl⟩⟩
      · exact rest _ k hk h0

theorem gatherHeader_spec (store : Nat → Option (List (Metric V))) (n : Nat) (hn : store n = none) : ∀ (fuel i : Nat), i ≤ n →
    n < i + fuel → (∀ j, i ≤ j → j < n → store j ≠ none) →
    gatherHeader store fuel i = ((List.range (n - i)).map (i + ·)).flatMap fun j => ((store j).getD []).map (annotate j)
  | 0, i, h, h', _ => by omega
  | fuel + 1, i, h, h', hs => by
    rw [gatherHeader]
    by_cases e : i = n
    · subst e; rw [hn]; simp
    · cases hi : store i with
      | none => exact absurd hi (hs i (Nat.le_refl _) (by omega))
      | some ms =>
        simp only
        rw [gatherHeader_spec store n hn fuel (i + 1) (by omega) (by omega) fun j h => hs j (by omega),
          show n - i = (n - (i + 1)) + 1 by omega, List.range_succ_eq_map]
        simp only [List.map_cons, List.flatMap_cons, Nat.add_zero, hi, Option.getD_some, List.map_map]
        congr 2
        apply List.map_congr_left
        intro k _
        simp only [Function.comp_apply]; omega

/-- **C69**, the header of a stage: if all tasks have reported, the metrics of all tasks, labelled with the task. -/
theorem C69_header_partial (own : List (Metric V)) (store : Nat → Option (List (Metric V))) (tasks fuel : Nat)
    (all : ∀ i < tasks, ∃ ms, store i = some ms) (none : store tasks = none) (hf : tasks < fuel) :
    headerMetrics own store fuel =
      own ++ (List.range tasks).flatMap fun i => ((store i).getD []).map (annotate i) := by
  unfold headerMetrics
  rw [gatherHeader_spec store tasks none fuel 0 (Nat.zero_le _) (by omega) fun j _ hj => by
    obtain ⟨ms, e⟩ := all j hj; rw [e]; simp]
  simp

/-- **C69 is false** of headers while a task has not reported: the metrics of the tasks after it are left out, too. -/
theorem C69_header_gap_false : ∃ (store : Nat → Option (List (Metric Nat))) (m : Metric Nat), (∃ ms, store 1 = some ms ∧ m ∈ ms) ∧
    ∀ fuel, headerMetrics [] store fuel = [] :=
  ⟨fun i => if i = 1 then some [⟨7, none, []⟩] else none, ⟨7, none, []⟩, ⟨_, rfl, by simp⟩, fun fuel => by
    cases fuel <;> rfl⟩

/-! ### Metrics they apply to, and metrics they do not -/

namespace Demo

/-- Counters and start times, each with a name: the former are added, of the latter the earlier is kept. -/
inductive Value where
  | count (name : String) (n : Nat)
  | start (n : Nat)
  deriving DecidableEq, Repr

def values : Values Value where
  name | .count name _ => name | .start _ => "start_timestamp"
  sortKey | .count .. => 1 | .start _ => 2
  timestamp | .count .. => false | .start _ => true
  empty | .count name _ => .count name 0 | .start n => .start n
  aggregate
    | .count a n, .count _ k => .ok (.count a (n + k))
    | .start n, .start k => .ok (.start (min n k))
    | _, _ => .error (.panic "Mismatched metric types")
  print | .count _ n => toString n | .start n => toString n

def kind : Value → Option String
  | .count name _ => some name
  | .start _ => none

theorem values_lawful : values.Lawful kind where
  same a b h := by cases a <;> cases b <;> simp_all [kind, values]
  empty a := by cases a <;> rfl
  aggregate a b h := by cases a <;> cases b <;> simp_all [kind, values]

/-- Two partitions in each of two tasks, which report in turn. -/
def sample : List (Metric Value) :=
  [⟨.count "rows" 5, some 0, [("task_id", "0")]⟩, ⟨.start 3, some 0, [("task_id", "0")]⟩,
   ⟨.count "rows" 6, some 1, [("task_id", "0")]⟩, ⟨.count "batches" 1, some 0, [("task_id", "0")]⟩,
   ⟨.count "rows" 7, some 0, [("task_id", "1")]⟩, ⟨.count "rows" 8, some 1, [("task_id", "1")]⟩]

theorem sample_regular : Regular values kind sample ∧ Apart values sample := by
  have h : ∀ m ∈ sample, ∃ t < 2, OfTask m (some t) := by
    intro m hm
    simp only [sample, List.mem_cons, List.not_mem_nil, or_false] at hm
    rcases hm with rfl | rfl | rfl | rfl | rfl | rfl
    all_goals first
      | exact ⟨0, by omega, by decide, by rintro _ ⟨⟩; omega⟩
      | exact ⟨1, by omega, by decide, by rintro _ ⟨⟩; omega⟩
  refine ⟨⟨by decide, fun m hm => ?_⟩, fun m hm n hn e hnone => ?_⟩
  · obtain ⟨t, -, ht⟩ := h m hm; exact ⟨_, ht⟩
  · obtain ⟨t, -, ht⟩ := h m hm; cases hnone.unique ht

example : ∃ ls, Says values sample ls ∧ format values id sample = .ok (text values ls) :=
  C69_text_says_what_was_recorded_partial values values_lawful sample_regular.1 sample_regular.2 id fun _ => .rfl

end Demo

open Demo in
/-- **C69 is false** of metrics some of which carry a task and some of which do not: they are written without braces. -/
theorem C69_mixed_labels_false : format values id [⟨.count "rows" 5, none, []⟩, ⟨.count "rows" 7, none, [("task_id", "0")]⟩] =
    .ok "rows=5, 0:7" := by
  have : aggregateByTask values [⟨.count "rows" 5, none, []⟩, ⟨.count "rows" 7, none, [("task_id", "0")]⟩] =
    .ok [⟨.count "rows" 5, none, []⟩, ⟨.count "rows" 7, none, [("task_id", "0")]⟩] := rfl
  unfold format
  rw [this]
  show Except.ok _ = Except.ok _
  rw [id, List.mergeSort_of_pairwise (by decide)]
  rfl

open Demo in
/-- **C69 is false** of metrics of one name and two kinds: nothing is written, the display panics. -/
theorem C69_two_kinds_false : format values id
    [⟨.count "start_timestamp" 7, none, [("task_id", "0")]⟩, ⟨.start 5, none, [("task_id", "0")]⟩] =
    .error (.panic "Mismatched metric types") := rfl

end DD.MetricsDisplay
