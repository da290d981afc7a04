/-
C40, C41: configuration options and passthrough headers.
-/
import Verif.Model.Headers

namespace DD.Headers

/-! ### Specification -/

/-- What is required of an extension (external): setting a key to a value that some state of the
extension prints for it succeeds, gives it that value and changes no other key. -/
structure Lawful (E : ExtType) : Prop where
  set_ok : ∀ (s s0 : E.State) (k v : Str), k ∈ E.keys → E.get s0 k = some v →
    ∃ s', E.set s k v = .ok s' ∧ E.get s' k = some v ∧ ∀ k', k' ≠ k → E.get s' k' = E.get s k'

/-- Lower-case token characters. -/
def Plain (s : Str) : Prop := ∀ c ∈ s, tokenChar c = true ∧ c.toLower = c

/-- A prefix without dots that is not itself a reserved header name. -/
structure PlainPrefix (p : Str) : Prop where
  plain : Plain p
  nodot : '.' ∉ p
  notReserved : ¬ configPrefix <+: p

/-- A key that does not repeat the prefix of its extension. -/
structure PlainKey (p k : Str) : Prop where
  plain : Plain k
  fresh : ¬ (p ++ ['.']) <+: k

/-! ### Strings -/

theorem trimFuel_of_not_prefix (p s : Str) (h : ¬ p <+: s) : ∀ n, trimFuel p n s = s
  | 0 => rfl
  | n + 1 => by
    have : p.isPrefixOf s = false := by
      rw [← Bool.not_eq_true, List.isPrefixOf_iff_prefix]; exact h
    simp [trimFuel, this]

theorem trim_of_not_prefix (p s : Str) (h : ¬ p <+: s) : trimStartMatches p s = s :=
  trimFuel_of_not_prefix p s h _

theorem trim_once (p s : Str) (hp : p ≠ []) (h : ¬ p <+: s) : trimStartMatches p (p ++ s) = s := by
  unfold trimStartMatches
  obtain ⟨n, hn⟩ : ∃ n, (p ++ s).length = n + 1 := by
    cases p with
    | nil => exact absurd rfl hp
    | cons a t => exact ⟨(t ++ s).length, by simp⟩
  rw [hn, trimFuel, if_pos (List.isPrefixOf_iff_prefix.mpr (List.prefix_append p s))]
  rw [List.drop_left]
  exact trimFuel_of_not_prefix p s h n

theorem trim_cases (p s : Str) : trimStartMatches p s = s ∨ p <+: s := by
  by_cases h : p <+: s
  · exact .inr h
  · exact .inl (trim_of_not_prefix p s h)

/-- Two dot-terminated words at the start of one string are equal. -/
theorem dot_prefix_inj : ∀ (p q r : Str), '.' ∉ p → '.' ∉ q → (p ++ ['.']) <+: (q ++ '.' :: r) → p = q
  | [], [], _, _, _, _ => rfl
  | [], b :: q, r, _, hq, h => by
    simp only [List.nil_append, List.cons_append, List.cons_prefix_cons] at h
    exact absurd (h.1 ▸ List.mem_cons_self ..) hq
  | a :: p, [], r, hp, _, h => by
    simp only [List.nil_append, List.cons_append, List.cons_prefix_cons] at h
    exact absurd (h.1 ▸ List.mem_cons_self ..) hp
  | a :: p, b :: q, r, hp, hq, h => by
    simp only [List.cons_append, List.cons_prefix_cons] at h
    rw [h.1, dot_prefix_inj p q r (fun hm => hp (List.mem_cons_of_mem _ hm))
      (fun hm => hq (List.mem_cons_of_mem _ hm)) h.2]

/-- A word without dots at the start of `q.r` is already at the start of `q`. -/
theorem prefix_before_dot : ∀ (p q r : Str), '.' ∉ p → p <+: (q ++ '.' :: r) → p <+: q
  | [], _, _, _, _ => List.nil_prefix
  | a :: p, [], r, hp, h => by
    simp only [List.nil_append, List.cons_prefix_cons] at h
    exact absurd (h.1 ▸ List.mem_cons_self ..) hp
  | a :: p, b :: q, r, hp, h => by
    simp only [List.cons_append, List.cons_prefix_cons] at h ⊢
    exact ⟨h.1, prefix_before_dot p q r (fun hm => hp (List.mem_cons_of_mem _ hm)) h.2⟩

theorem configPrefix_plain : Plain configPrefix := by unfold Plain; decide +kernel
theorem configPrefix_nodot : '.' ∉ configPrefix := by decide +kernel
theorem configPrefix_ne : configPrefix ≠ [] := by decide +kernel

theorem plain_append {a b : Str} (ha : Plain a) (hb : Plain b) : Plain (a ++ b) := fun c hc =>
  (List.mem_append.mp hc).elim (ha c) (hb c)

theorem headerName_plain (s : Str) (h : Plain s) (hne : s ≠ []) : headerName s = .ok s := by
  unfold headerName
  have h1 : s.isEmpty = false := by cases s with
    | nil => exact absurd rfl hne
    | cons => rfl
  have h2 : s.all tokenChar = true := List.all_eq_true.mpr fun c hc => (h c hc).1
  have h3 : s.map Char.toLower = s := by
    have : s.map Char.toLower = s.map id := List.map_congr_left fun c hc => (h c hc).2
    rw [this, List.map_id]
  simp [h1, h2, h3]

theorem fullName_plain (p k : Str) (hp : PlainPrefix p) (hk : PlainKey p k) :
    headerName (configPrefix ++ (p ++ '.' :: k)) = .ok (configPrefix ++ (p ++ '.' :: k)) := by
  refine headerName_plain _ (plain_append configPrefix_plain (plain_append hp.plain ?_)) ?_
  · intro c hc
    rcases List.mem_cons.mp hc with rfl | hc
    · decide +kernel
    · exact hk.plain c hc
  · exact fun h => configPrefix_ne (List.append_eq_nil_iff.mp h).1

/-! ### Coordinator side -/

theorem addEntries_spec (pfx : Str) (hp : PlainPrefix pfx) : ∀ (es : Entries) (m : HeaderMap),
    (∀ k v, (k, some v) ∈ es → PlainKey pfx k ∧ v.all visible) →
    (es.map Prod.fst).Nodup →
    (∀ k, k ∈ es.map Prod.fst → ∀ v, (configPrefix ++ (pfx ++ '.' :: k), v) ∉ m) →
    ∃ m', addEntries pfx es m = .ok m' ∧ ∀ x, x ∈ m' ↔ x ∈ m ∨
      ∃ k v, (k, some v) ∈ es ∧ x = (configPrefix ++ (pfx ++ '.' :: k), v)
  | [], m, _, _, _ => ⟨m, rfl, by simp⟩
  | (k, none) :: es, m, h, hn, hm => by
    simp only [List.map_cons, List.nodup_cons] at hn
    obtain ⟨m', h1, h2⟩ := addEntries_spec pfx hp es m (fun k v hk => h k v (List.mem_cons_of_mem _ hk))
      hn.2 (fun k hk => hm k (List.mem_cons_of_mem _ hk))
    refine ⟨m', h1, fun x => (h2 x).trans (or_congr Iff.rfl ?_)⟩
    simp
  | (k, some v) :: es, m, h, hn, hm => by
    simp only [List.map_cons, List.nodup_cons] at hn
    have hk := h k v (List.mem_cons_self ..)
    have hins : ∀ x, x ∈ insert m (configPrefix ++ (pfx ++ '.' :: k)) v ↔
        x ∈ m ∨ x = (configPrefix ++ (pfx ++ '.' :: k), v) := by
      intro x
      simp only [insert, List.mem_append, List.mem_filter, List.mem_singleton, bne_iff_ne, ne_eq]
      refine or_congr ⟨fun h => h.1, fun hx => ⟨hx, fun he => ?_⟩⟩ Iff.rfl
      exact hm k (by simp) x.2 (he ▸ hx)
    obtain ⟨m', h1, h2⟩ := addEntries_spec pfx hp es (insert m (configPrefix ++ (pfx ++ '.' :: k)) v)
      (fun k v hk => h k v (List.mem_cons_of_mem _ hk)) hn.2 (fun k' hk' v' hmem => by
        rcases (hins _).mp hmem with h' | h'
        · exact hm k' (List.mem_cons_of_mem _ hk') v' h'
        · have := List.append_cancel_left (Prod.mk.inj h').1
          have := List.append_cancel_left this
          cases this
          exact hn.1 hk')
    refine ⟨m', ?_, fun x => (h2 x).trans ?_⟩
    · simp only [addEntries, fullName_plain pfx k hp hk.1, headerValue, hk.2, if_true]
      exact h1
    · rw [hins]
      simp only [List.mem_cons, Prod.mk.injEq, Option.some.injEq]
      constructor
      · rintro ((h | h) | ⟨k', v', h, h'⟩)
        · exact .inl h
        · exact .inr ⟨k, v, .inl ⟨rfl, rfl⟩, h⟩
        · exact .inr ⟨k', v', .inr h, h'⟩
      · rintro (h | ⟨k', v', ⟨rfl, rfl⟩ | h, h'⟩)
        · exact .inl (.inl h)
        · exact .inl (.inr h')
        · exact .inr ⟨k', v', h, h'⟩

theorem name_inj {p q k l : Str} (hp : '.' ∉ p) (hq : '.' ∉ q)
    (h : configPrefix ++ (p ++ '.' :: k) = configPrefix ++ (q ++ '.' :: l)) : p = q ∧ k = l := by
  have h := List.append_cancel_left h
  have hpq : p = q := dot_prefix_inj p q l hp hq (by
    rw [← h]
    exact ⟨k, by simp⟩)
  subst hpq
  have := List.append_cancel_left h
  exact ⟨rfl, (List.cons.inj this).2⟩

theorem addExtensions_spec (prefixes : List Str) : ∀ (exts : List (Str × Entries)) (m : HeaderMap),
    (∀ e ∈ exts, e.1 ∈ prefixes → PlainPrefix e.1 ∧ (e.2.map Prod.fst).Nodup ∧
      ∀ k v, (k, some v) ∈ e.2 → PlainKey e.1 k ∧ v.all visible) →
    (exts.map Prod.fst).Nodup →
    (∀ e ∈ exts, ∀ k v, (configPrefix ++ (e.1 ++ '.' :: k), v) ∉ m) →
    ∃ m', addExtensions prefixes exts m = .ok m' ∧ ∀ x, x ∈ m' ↔ x ∈ m ∨
      ∃ e ∈ exts, e.1 ∈ prefixes ∧ ∃ k v, (k, some v) ∈ e.2 ∧ x = (configPrefix ++ (e.1 ++ '.' :: k), v)
  | [], m, _, _, _ => ⟨m, rfl, by simp⟩
  | (pfx, es) :: rest, m, h, hn, hm => by
    simp only [List.map_cons, List.nodup_cons] at hn
    by_cases hc : pfx ∈ prefixes
    · obtain ⟨a1, a2, a3⟩ := h (pfx, es) (List.mem_cons_self ..) hc
      obtain ⟨m1, b1, b2⟩ := addEntries_spec pfx a1 es m a3 a2
        (fun k _ v => hm (pfx, es) (List.mem_cons_self ..) k v)
      have hfresh : ∀ e ∈ rest, ∀ k v, (configPrefix ++ (e.1 ++ '.' :: k), v) ∉ m1 ∨ e.1 ∉ prefixes := by
        intro e he k v
        by_cases hp : e.1 ∈ prefixes
        · refine .inl fun hmem => ?_
          rcases (b2 _).mp hmem with h' | ⟨k', v', _, h'⟩
          · exact hm e (List.mem_cons_of_mem _ he) k v h'
          · have := name_inj (h e (List.mem_cons_of_mem _ he) hp).1.nodot a1.nodot (Prod.mk.inj h').1
            exact hn.1 (List.mem_map.mpr ⟨e, he, this.1⟩)
        · exact .inr hp
      -- unregistered extensions are skipped, so only the registered ones matter
      have rec_ : ∀ (l : List (Str × Entries)) (m : HeaderMap),
          addExtensions prefixes l m = addExtensions prefixes (l.filter fun e => prefixes.contains e.1) m := by
        intro l
        induction l with
        | nil => intro m; rfl
        | cons e t ih =>
          intro m
          obtain ⟨p, es'⟩ := e
          by_cases hp : prefixes.contains p = true
          · simp only [List.filter_cons, hp, if_true, addExtensions, ih]
          · simp only [List.filter_cons, hp, addExtensions, ih]
            simp
      obtain ⟨m', c1, c2⟩ := addExtensions_spec prefixes (rest.filter fun e => prefixes.contains e.1) m1
        (fun e he => h e (List.mem_cons_of_mem _ (List.mem_filter.mp he).1))
        (hn.2.sublist (List.Sublist.map _ List.filter_sublist))
        (fun e he k v => by
          have he := List.mem_filter.mp he
          exact (hfresh e he.1 k v).resolve_right (fun hno => hno (by simpa using he.2)))
      refine ⟨m', ?_, fun x => (c2 x).trans ?_⟩
      · simp only [addExtensions, List.contains_iff_mem, hc, if_true, b1]
        exact (rec_ rest m1).trans c1
      · rw [b2]
        constructor
        · rintro ((h | ⟨k, v, h1, h2⟩) | ⟨e, he, hep, h'⟩)
          · exact .inl h
          · exact .inr ⟨(pfx, es), List.mem_cons_self .., hc, k, v, h1, h2⟩
          · exact .inr ⟨e, List.mem_cons_of_mem _ (List.mem_filter.mp he).1, hep, h'⟩
        · rintro (h | ⟨e, he, hep, k, v, h1, h2⟩)
          · exact .inl (.inl h)
          · rcases List.mem_cons.mp he with rfl | he
            · exact .inl (.inr ⟨k, v, h1, h2⟩)
            · exact .inr ⟨e, List.mem_filter.mpr ⟨he, by simpa using hep⟩, hep, k, v, h1, h2⟩
    · obtain ⟨m', c1, c2⟩ := addExtensions_spec prefixes rest m
        (fun e he => h e (List.mem_cons_of_mem _ he)) hn.2
        (fun e he => hm e (List.mem_cons_of_mem _ he))
      refine ⟨m', ?_, fun x => (c2 x).trans (or_congr Iff.rfl ?_)⟩
      · simp only [addExtensions, List.contains_iff_mem, hc, if_false]
        exact c1
      · constructor
        · rintro ⟨e, he, h'⟩; exact ⟨e, List.mem_cons_of_mem _ he, h'⟩
        · rintro ⟨e, he, hep, h'⟩
          rcases List.mem_cons.mp he with rfl | he
          · exact absurd hep hc
          · exact ⟨e, he, hep, h'⟩
termination_by exts => exts.length
decreasing_by
  · have := List.length_filter_le (fun e : Str × Entries => prefixes.contains e.1) rest
    simp only [List.length_cons]; omega
  · simp

/-! ### Worker side -/

/-- The option of the extension a header sets on the worker, if any. -/
def target (E : ExtType) (h : Str × Str) : Option Str :=
  let key := trimStartMatches configPrefix h.1
  if (E.pfx ++ ['.']).isPrefixOf key then
    let key := trimStartMatches (E.pfx ++ ['.']) key
    if E.keys.contains key then some key else none
  else none

theorem applyHeader_none (E : ExtType) (s : E.State) (h : Str × Str) (ht : target E h = none) :
    applyHeader E s h = .ok s := by
  unfold target at ht
  unfold applyHeader
  simp only at ht ⊢
  split
  · rename_i h1
    rw [if_pos h1] at ht
    split at ht
    · cases ht
    · rename_i h2
      rw [if_pos (by simpa using h2)]
  · rfl

theorem applyHeader_some (E : ExtType) (s : E.State) (h : Str × Str) (k : Str) (ht : target E h = some k)
    (hv : h.2.all visible) : k ∈ E.keys ∧ applyHeader E s h = E.set s k h.2 := by
  unfold target at ht
  unfold applyHeader
  simp only at ht ⊢
  split at ht
  · rename_i h1
    split at ht
    · rename_i h2
      cases ht
      refine ⟨by simpa using h2, ?_⟩
      rw [if_pos h1]
      simp only [h2, Bool.not_true, if_false, hv, if_true]
      rfl
    · cases ht
  · cases ht

theorem fromHeaders_spec (E : ExtType) (hE : Lawful E) (s0 : E.State) : ∀ (hs : HeaderMap) (s : E.State),
    (∀ h ∈ hs, ∀ k, target E h = some k → E.get s0 k = some h.2 ∧ h.2.all visible) →
    ∃ w, fromHeaders E s hs = .ok w
      ∧ (∀ k, (∃ h ∈ hs, target E h = some k) → E.get w k = E.get s0 k)
      ∧ (∀ k, (∀ h ∈ hs, target E h ≠ some k) → E.get w k = E.get s k)
  | [], s, _ => ⟨s, rfl, by simp, fun _ _ => rfl⟩
  | h :: hs, s, hyp => by
    have step : ∃ s', applyHeader E s h = .ok s' ∧
        (∀ k, target E h = some k → E.get s' k = E.get s0 k) ∧
        (∀ k, target E h ≠ some k → E.get s' k = E.get s k) := by
      cases ht : target E h with
      | none => exact ⟨s, applyHeader_none E s h ht, by simp, fun _ _ => rfl⟩
      | some k =>
        obtain ⟨g, gv⟩ := hyp h (List.mem_cons_self ..) k ht
        obtain ⟨hk, ha⟩ := applyHeader_some E s h k ht gv
        obtain ⟨s', e1, e2, e3⟩ := hE.set_ok s s0 k h.2 hk g
        refine ⟨s', ha.trans e1, fun k' hk' => ?_, fun k' hk' => e3 k' fun he => hk' (he ▸ rfl)⟩
        cases hk'
        rw [e2, g]
    obtain ⟨s', a1, a2, a3⟩ := step
    obtain ⟨w, b1, b2, b3⟩ := fromHeaders_spec E hE s0 hs s' fun h' hh => hyp h' (List.mem_cons_of_mem _ hh)
    refine ⟨w, ?_, fun k hk => ?_, fun k hk => ?_⟩
    · simp only [fromHeaders, a1]; exact b1
    · by_cases hin : ∃ h' ∈ hs, target E h' = some k
      · exact b2 k hin
      · obtain ⟨h', hh', ht'⟩ := hk
        rcases List.mem_cons.mp hh' with rfl | hh'
        · rw [b3 k fun h'' hh'' he => hin ⟨h'', hh'', he⟩]
          exact a2 k ht'
        · exact absurd ⟨h', hh', ht'⟩ hin
    · rw [b3 k fun h' hh' => hk h' (List.mem_cons_of_mem _ hh')]
      exact a3 k (hk h (List.mem_cons_self ..))

theorem target_own (E : ExtType) (k v : Str) (hp : PlainPrefix E.pfx) (hk : PlainKey E.pfx k)
    (hmem : k ∈ E.keys) : target E (configPrefix ++ (E.pfx ++ '.' :: k), v) = some k := by
  have h1 : trimStartMatches configPrefix (configPrefix ++ (E.pfx ++ '.' :: k)) = E.pfx ++ '.' :: k :=
    trim_once _ _ configPrefix_ne fun h =>
      hp.notReserved (prefix_before_dot _ _ _ configPrefix_nodot h)
  have h2 : E.pfx ++ '.' :: k = (E.pfx ++ ['.']) ++ k := by simp
  have h3 : (E.pfx ++ ['.']).isPrefixOf ((E.pfx ++ ['.']) ++ k) = true :=
    List.isPrefixOf_iff_prefix.mpr (List.prefix_append _ _)
  have h4 : trimStartMatches (E.pfx ++ ['.']) ((E.pfx ++ ['.']) ++ k) = k :=
    trim_once _ _ (by simp) hk.fresh
  unfold target
  simp only [h1]
  rw [h2, if_pos h3, h4, if_pos (by simpa using hmem)]

theorem target_other (E : ExtType) (p k v : Str) (hp : PlainPrefix p) (hE : '.' ∉ E.pfx)
    (hne : p ≠ E.pfx) : target E (configPrefix ++ (p ++ '.' :: k), v) = none := by
  have h1 : trimStartMatches configPrefix (configPrefix ++ (p ++ '.' :: k)) = p ++ '.' :: k :=
    trim_once _ _ configPrefix_ne fun h =>
      hp.notReserved (prefix_before_dot _ _ _ configPrefix_nodot h)
  unfold target
  simp only [h1]
  rw [if_neg]
  intro h
  exact hne (dot_prefix_inj _ _ _ hE hp.nodot (List.isPrefixOf_iff_prefix.mp h)).symm

/-! ### C40 -/

/-- A session that can be sent: extensions with different plain prefixes, plain keys, and values that are
valid header values. -/
structure Sendable (prefixes : List Str) (exts : List (Str × Entries)) : Prop where
  distinct : (exts.map Prod.fst).Nodup
  ok : ∀ e ∈ exts, e.1 ∈ prefixes → PlainPrefix e.1 ∧ (e.2.map Prod.fst).Nodup ∧
    ∀ k v, (k, some v) ∈ e.2 → PlainKey e.1 k ∧ v.all visible

theorem propagation_spec (prefixes : List Str) (exts : List (Str × Entries)) (h : Sendable prefixes exts)
    (hne : prefixes ≠ []) :
    ∃ m, propagationHeaders prefixes exts = .ok m ∧ ∀ x, x ∈ m ↔
      ∃ e ∈ exts, e.1 ∈ prefixes ∧ ∃ k v, (k, some v) ∈ e.2 ∧ x = (configPrefix ++ (e.1 ++ '.' :: k), v) := by
  obtain ⟨m, h1, h2⟩ := addExtensions_spec prefixes exts [] h.ok h.distinct (by simp)
  refine ⟨m, ?_, fun x => by simpa using h2 x⟩
  unfold propagationHeaders
  rw [if_neg (by simpa using hne)]
  exact h1

/-- **C40**. Full claim: for all keys. Missing, because false of the code: keys or prefixes with upper-case
letters and keys repeating the prefix (the two findings below). For every session, every registered extension `E` of it in state `s` and every worker-side
state `w0` of the extension: the headers are produced, and after reading them on the worker every option
that had a value has that value, and every option without a value is as it was on the worker. -/
theorem C40_options_arrive_partial (E : ExtType) (hE : Lawful E) (s w0 : E.State) (prefixes : List Str)
    (exts : List (Str × Entries)) (h : Sendable prefixes exts) (hreg : E.pfx ∈ prefixes)
    (hext : (E.pfx, E.entries s) ∈ exts) :
    ∃ m w, propagationHeaders prefixes exts = .ok m ∧ fromHeaders E w0 m = .ok w ∧
      ∀ k ∈ E.keys, (∀ v, E.get s k = some v → E.get w k = some v)
        ∧ (E.get s k = none → E.get w k = E.get w0 k) := by
  obtain ⟨m, h1, h2⟩ := propagation_spec prefixes exts h (List.ne_nil_of_mem hreg)
  obtain ⟨hpp, _, hent⟩ := h.ok _ hext hreg
  -- the extension with this prefix is unique
  have huniq : ∀ e ∈ exts, e.1 = E.pfx → e = (E.pfx, E.entries s) := by
    intro e he hee
    have hd := h.distinct
    clear h1 h2
    induction exts with
    | nil => cases he
    | cons a t ih =>
      simp only [List.map_cons, List.nodup_cons] at hd
      rcases List.mem_cons.mp he with rfl | he <;> rcases List.mem_cons.mp hext with hx | hx
      · exact hx.symm
      · exact absurd (List.mem_map.mpr ⟨_, hx, hee.symm⟩) hd.1
      · exact absurd (List.mem_map.mpr ⟨_, he, hee.trans (congrArg Prod.fst hx)⟩) hd.1
      · exact ih ⟨hd.2, fun e he => h.ok e (List.mem_cons_of_mem _ he)⟩ hx he hd.2
  have htarget : ∀ x ∈ m, ∀ k, target E x = some k → k ∈ E.keys ∧ E.get s k = some x.2 ∧ x.2.all visible := by
    intro x hx k ht
    obtain ⟨e, he, hep, k', v', hk', rfl⟩ := (h2 x).mp hx
    obtain ⟨a1, _, a3⟩ := h.ok e he hep
    by_cases hq : e.1 = E.pfx
    · have := huniq e he hq
      subst this
      obtain ⟨kk, hkk, heq⟩ := List.mem_map.mp hk'
      obtain ⟨rfl, hg⟩ := Prod.mk.inj heq
      rw [target_own E kk v' a1 (a3 kk v' hk').1 hkk] at ht
      cases ht
      exact ⟨hkk, hg, (a3 _ v' hk').2⟩
    · rw [target_other E e.1 k' v' a1 hpp.nodot hq] at ht
      cases ht
  obtain ⟨w, w1, w2, w3⟩ := fromHeaders_spec E hE s m w0 fun x hx k ht => (htarget x hx k ht).2
  refine ⟨m, w, h1, w1, fun k hk => ⟨fun v hv => ?_, fun hnone => ?_⟩⟩
  · have hin : (k, some v) ∈ E.entries s := List.mem_map.mpr ⟨k, hk, by rw [hv]⟩
    rw [w2 k ⟨_, (h2 _).mpr ⟨_, hext, hreg, k, v, hin, rfl⟩, target_own E k v hpp (hent k v hin).1 hk⟩, hv]
  · refine w3 k fun x hx ht => ?_
    have := (htarget x hx k ht).2.1
    rw [hnone] at this
    cases this

/-- A concrete extension: two string options. -/
def sample : ExtType where
  State := Option Str × Option Str
  pfx := "custom".toList
  keys := ["foo".toList, "bar".toList]
  get s k := if k = "foo".toList then s.1 else if k = "bar".toList then s.2 else none
  set s k v := if k = "foo".toList then .ok (some v, s.2)
    else if k = "bar".toList then .ok (s.1, some v) else .error (.plan "unknown option")

theorem sample_lawful : Lawful sample where
  set_ok := by
    intro s s0 k v hk _
    have hfb : ("foo".toList : Str) ≠ "bar".toList := by decide +kernel
    simp only [sample, List.mem_cons, List.not_mem_nil, or_false] at hk ⊢
    rcases hk with rfl | rfl
    · refine ⟨_, if_pos rfl, if_pos rfl, fun k' hk' => ?_⟩
      simp only [if_neg hk']
    · refine ⟨_, by rw [if_neg hfb.symm, if_pos rfl], by rw [if_neg hfb.symm, if_pos rfl], fun k' hk' => ?_⟩
      simp only [if_neg hk']

/-- Non-vacuity: the hypotheses of `C40_options_arrive_partial` hold for a session with this extension. -/
example : Sendable ["custom".toList] [("custom".toList, sample.entries (some "hello world".toList, none))] := by
  refine ⟨by decide +kernel, ?_⟩
  intro e he _
  obtain rfl := List.mem_singleton.mp he
  refine ⟨⟨by unfold Plain; decide +kernel, by decide +kernel, by decide +kernel⟩, by decide +kernel, ?_⟩
  intro k v hk
  have : k = "foo".toList ∧ v = "hello world".toList := by
    simp only [ExtType.entries, sample, List.map_cons, List.map_nil, List.mem_cons, List.not_mem_nil,
      or_false, Prod.mk.injEq] at hk
    rcases hk with ⟨rfl, h⟩ | ⟨rfl, h⟩
    · exact ⟨rfl, by simpa using h⟩
    · rw [if_neg (by decide +kernel), if_pos trivial] at h; cases h
  obtain ⟨rfl, rfl⟩ := this
  exact ⟨⟨by unfold Plain; decide +kernel, by decide +kernel⟩, by decide +kernel⟩

/-- An option whose value is not a valid header value fails the query at the coordinator instead of
arriving changed. -/
theorem C40_invalid_value_is_an_error (prefixes : List Str) (pfx k v : Str) (es : Entries) (m : HeaderMap)
    (hv : v.all visible = false) (hreg : pfx ∈ prefixes) (rest : List (Str × Entries)) :
    ∃ e, addExtensions prefixes ((pfx, (k, some v) :: es) :: rest) m = .error e := by
  simp only [addExtensions, List.contains_iff_mem, hreg, if_true, addEntries, headerValue, hv]
  cases headerName (configPrefix ++ (pfx ++ '.' :: k)) with
  | error e => exact ⟨e, rfl⟩
  | ok n => exact ⟨_, rfl⟩

/-- Finding: header names are lower-case, so an option whose key has an upper-case letter never reaches
the worker, without an error. -/
theorem C40_upper_case_key_lost :
    let E : ExtType := { sample with keys := ["Foo".toList], get := fun s _ => s.1,
                                     set := fun s _ v => .ok (some v, s.2) }
    ∃ m, propagationHeaders ["custom".toList] [("custom".toList, [("Foo".toList, some "x".toList)])] = .ok m
      ∧ fromHeaders E (some "default".toList, none) m = .ok (some "default".toList, none) :=
  ⟨[("x-datafusion-distributed-config-custom.foo".toList, "x".toList)], by rfl, by rfl⟩

/-- Finding: a key that starts with the prefix of its own extension sets another option. -/
theorem C40_repeated_prefix_sets_other_option :
    let E : ExtType := { sample with keys := ["foo".toList, "custom.foo".toList] }
    ∃ m, propagationHeaders ["custom".toList] [("custom".toList, [("custom.foo".toList, some "x".toList)])] = .ok m
      ∧ fromHeaders E (some "default".toList, none) m = .ok (some "x".toList, none) :=
  ⟨[("x-datafusion-distributed-config-custom.custom.foo".toList, "x".toList)], by rfl,
    by rfl⟩

/-! ### C41 -/

/-- **C41**: a passthrough header with a reserved name is refused, all others are kept as they are. -/
theorem C41_reserved_refused (headers : HeaderMap) :
    ((∃ h ∈ headers, configPrefix <+: h.1) → ∃ e, setPassthrough headers = .error e)
    ∧ ((∀ h ∈ headers, ¬ configPrefix <+: h.1) → setPassthrough headers = .ok headers) := by
  unfold setPassthrough
  constructor
  · rintro ⟨h, hm, hp⟩
    rw [if_pos (List.any_eq_true.mpr ⟨h, hm, List.isPrefixOf_iff_prefix.mpr hp⟩)]
    exact ⟨_, rfl⟩
  · intro hall
    rw [if_neg]
    intro hany
    obtain ⟨h, hm, hp⟩ := List.any_eq_true.mp hany
    exact hall h hm (List.isPrefixOf_iff_prefix.mp hp)

/-- **C41**: accepted passthrough headers are delivered unchanged, in order, with every value, and none of
the configuration headers is replaced by them. -/
theorem C41_delivered_unchanged (prefixes : List Str) (exts : List (Str × Entries))
    (h : Sendable prefixes exts) (given kept : HeaderMap) (hacc : setPassthrough given = .ok kept) :
    ∃ conf m, propagationHeaders prefixes exts = .ok conf ∧ taskHeaders prefixes exts kept = .ok m
      ∧ m = conf ++ given
      ∧ ∀ n, (∃ v, (n, v) ∈ given) → m.filter (fun p => p.1 == n) = given.filter (fun p => p.1 == n) := by
  have hk : kept = given ∧ ∀ x ∈ given, ¬ configPrefix <+: x.1 := by
    unfold setPassthrough at hacc
    split at hacc
    · cases hacc
    · rename_i hno
      exact ⟨(Except.ok.inj hacc).symm, fun x hx hp =>
        hno (List.any_eq_true.mpr ⟨x, hx, List.isPrefixOf_iff_prefix.mpr hp⟩)⟩
  obtain ⟨rfl, hres⟩ := hk
  have hconf : ∃ conf, propagationHeaders prefixes exts = .ok conf ∧ ∀ x ∈ conf, configPrefix <+: x.1 := by
    by_cases hne : prefixes = []
    · subst hne; exact ⟨[], rfl, by simp⟩
    · obtain ⟨m, h1, h2⟩ := propagation_spec prefixes exts h hne
      refine ⟨m, h1, fun x hx => ?_⟩
      obtain ⟨_, _, _, _, _, _, rfl⟩ := (h2 x).mp hx
      exact List.prefix_append _ _
  obtain ⟨conf, c1, c2⟩ := hconf
  have hfilter : conf.filter (fun p => !(kept.any fun q => q.1 == p.1)) = conf := by
    rw [List.filter_eq_self]
    intro x hx
    simp only [Bool.not_eq_true', List.any_eq_false, beq_iff_eq]
    intro y hy he
    exact hres y hy (he ▸ c2 x hx)
  refine ⟨conf, conf ++ kept, c1, ?_, rfl, ?_⟩
  · unfold taskHeaders; rw [c1]
    show Except.ok (extend conf kept) = _
    rw [extend, hfilter]
  · rintro n ⟨v, hv⟩
    rw [List.filter_append]
    have : conf.filter (fun p => p.1 == n) = [] := by
      rw [List.filter_eq_nil_iff]
      intro x hx he
      simp only [beq_iff_eq] at he
      exact hres _ hv (he ▸ c2 x hx)
    rw [this, List.nil_append]

theorem fromHeaders_append (E : ExtType) : ∀ (a b : HeaderMap) (s : E.State),
    fromHeaders E s (a ++ b) = (fromHeaders E s a).bind fun s' => fromHeaders E s' b
  | [], _, _ => rfl
  | h :: a, b, s => by
    simp only [List.cons_append, fromHeaders]
    cases applyHeader E s h with
    | error e => rfl
    | ok s' => exact fromHeaders_append E a b s'

/-- **C41**, last clause. Full claim: accepted passthrough headers never change a configuration option on
the worker. Proved for headers whose name does not start with the prefix of the extension and a dot.
Missing, because false of the code: the other headers, see `C41_passthrough_changes_option`. -/
theorem C41_options_untouched_partial (E : ExtType) (w0 : E.State) (conf given : HeaderMap)
    (hacc : setPassthrough given = .ok given) (hno : ∀ h ∈ given, ¬ (E.pfx ++ ['.']) <+: h.1) :
    fromHeaders E w0 (conf ++ given) = fromHeaders E w0 conf := by
  have hres : ∀ x ∈ given, ¬ configPrefix <+: x.1 := by
    intro x hx hp
    unfold setPassthrough at hacc
    rw [if_pos (List.any_eq_true.mpr ⟨x, hx, List.isPrefixOf_iff_prefix.mpr hp⟩)] at hacc
    cases hacc
  have hskip : ∀ (g : HeaderMap) (s : E.State), (∀ x ∈ g, ¬ configPrefix <+: x.1) →
      (∀ h ∈ g, ¬ (E.pfx ++ ['.']) <+: h.1) → fromHeaders E s g = .ok s := by
    intro g
    induction g with
    | nil => intro s _ _; rfl
    | cons h t ih =>
      intro s h1 h2
      have : target E h = none := by
        unfold target
        simp only [trim_of_not_prefix _ _ (h1 h (List.mem_cons_self ..))]
        rw [if_neg]
        intro hp
        exact h2 h (List.mem_cons_self ..) (List.isPrefixOf_iff_prefix.mp hp)
      simp only [fromHeaders, applyHeader_none E s h this]
      exact ih s (fun x hx => h1 x (List.mem_cons_of_mem _ hx)) fun x hx => h2 x (List.mem_cons_of_mem _ hx)
  rw [fromHeaders_append]
  cases fromHeaders E w0 conf with
  | error e => rfl
  | ok s => exact hskip given s hres hno

/-- Finding: a passthrough header named `custom.foo` is accepted and overrides the option `foo` of the
extension `custom` on the worker, although the coordinator sent another value. -/
theorem C41_passthrough_changes_option :
    let given : HeaderMap := [("custom.foo".toList, "evil".toList)]
    setPassthrough given = .ok given
    ∧ ∃ m, taskHeaders ["custom".toList]
          [("custom".toList, sample.entries (some "good".toList, none))] given = .ok m
      ∧ fromHeaders sample (none, none) m = .ok (some "evil".toList, none) :=
  ⟨by rfl, [("x-datafusion-distributed-config-custom.foo".toList, "good".toList),
    ("custom.foo".toList, "evil".toList)], by rfl, by rfl⟩

/-- Non-vacuity of `C41_options_untouched_partial` and `C41_delivered_unchanged`. -/
example : setPassthrough [("x-custom".toList, "1".toList), ("authorization".toList, "2".toList)]
    = .ok [("x-custom".toList, "1".toList), ("authorization".toList, "2".toList)] := by rfl

end DD.Headers
