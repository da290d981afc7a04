/-
The nodes of a legal plan only read partitions their inputs have.
-/
import Verif.Lemmas.PlanNetwork
import Verif.Lemmas.Faulty

namespace DD.Net

open DD.Tree DD.Tree.Rec

variable {Row : Type}

/-- One node run by `t` tasks reads partitions that exist. -/
def NodeWithin (t : Nat) (x : Plan Row) : Prop :=
  match x.kind with
  | .op .. => ∀ c ∈ x.children, c.parts = x.parts
  | .join m _ => ∃ b p, x.children = [b, p] ∧ p.parts = x.parts ∧ 0 < b.parts ∧ (m = .partitioned → b.parts = x.parts)
  | .shuffle .. => ∃ c, x.children = [c]
  | .netBroadcast .. => ∃ c, x.children = [c] ∧ 0 < (strip c).parts
  | .netCoalesce p n _ => ∃ c, x.children = [c] ∧ 0 < t ∧ 0 < (strip c).parts ∧ p = (strip c).parts * max (divCeil n t) 1
  | .broadcast _ | .hashRepart .. | .otherRepart .. => ∃ c, x.children = [c]
  | _ => True

/-- … and so do all nodes of a plan run by `T` tasks. -/
def Within (T : Nat) (p : Plan Row) : Prop := ∀ t x, At T p t x → NodeWithin t x

theorem Within.child {T : Nat} {k : Kind Row} {tc cs} (h : Within T (.node k tc cs)) {i : Nat} {c : Plan Row} (hc : cs[i]? = some c) :
    Within (childCount k T i) c := fun t x hx => h t x (.child hc hx)

theorem legal_parts {ph : Bool} {T : Nat} {p : Plan Row} {I : Info Row} (h : Legal ph T p I) (hT : 0 < T) : p.parts = I.parts :=
  (h.good hT true).choose_spec.2.parts

theorem legal_within {ph : Bool} {T : Nat} {p : Plan Row} {I : Info Row} (h : Legal ph T p I) : 0 < T → Within T p := by
  have zip : ∀ {α : Type} {cs : List (Plan Row)} {as : List α} (_ : cs.length = as.length) {i : Nat} {c},
      cs[i]? = some c → ∃ a, as[i]? = some a := by
    intro α cs as hl i c hc
    have := (List.getElem?_eq_some_iff.mp hc).1
    exact ⟨as[i]'(hl ▸ this), List.getElem?_eq_getElem _⟩
  have one : ∀ {c : Plan Row} {P : Plan Row → Prop}, P c → ∀ (i : Nat) c', [c][i]? = some c' → P c' := by
    intro c P h i c' hc
    cases i with
    | zero => cases hc; exact h
    | succ i => cases hc
  have two : ∀ {b c : Plan Row} {P : Plan Row → Prop}, P b → P c → ∀ (i : Nat) c', [b, c][i]? = some c' → P c' := by
    intro b c P h h' i c' hc
    match i with
    | 0 => cases hc; exact h
    | 1 => cases hc; exact h'
    | i + 2 => cases hc
  have plain : ∀ {T : Nat} {k : Kind Row} {tc : TaskCount} {cs : List (Plan Row)}, k.isNet = false →
      (∀ ws m, k ≠ .ciu ws m) → NodeWithin T (.node k tc cs) → (∀ (i : Nat) c, cs[i]? = some c → Within T c) → Within T (.node k tc cs) := by
    intro T k tc cs hn hk hnode hcs t x hat
    cases hat with
    | root => exact hnode
    | child hc hat =>
      rw [childCount_same hn hk] at hat
      exact hcs _ _ hc t x hat
  have headed : ∀ {N : Nat} {c : Plan Row}, (c.kind.isHead = true → c.children.length = 1) → Within N (strip c) → Within N c := by
    intro N c hh hw
    rcases strip_cases c with e | ⟨hk, y, rest, e, e'⟩
    · rwa [e] at hw
    · rw [e'] at hw
      have hl := hh hk
      have hc : c = .node c.kind c.tc c.children := by cases c; rfl
      rw [hc, e]
      have hrest : rest = [] := by rw [e] at hl; simpa using hl
      subst hrest
      refine plain (isHead_isNet hk) ?_ ?_ (one hw)
      · intro ws m hkk
        rw [hkk] at hk
        cases hk
      · revert hk
        generalize c.kind = k
        intro hk
        cases k <;> first | cases hk; done | exact ⟨y, rfl⟩
  have net : ∀ {T : Nat} {k : Kind Row} {tc : TaskCount} {c : Plan Row}, k.isNet = true → NodeWithin T (.node k tc [c]) →
      (c.kind.isHead = true → c.children.length = 1) → Within k.tasks (strip c) → Within T (.node k tc [c]) := by
    intro T k tc c hn ha hh hw t x hat
    cases hat with
    | root => exact ha
    | @child _ _ _ _ i c' _ _ hc hat =>
      have hcc : childCount k T i = k.tasks := by cases k <;> first | rfl | cases hn
      rw [hcc] at hat
      cases i with
      | zero => cases hc; exact headed hh hw t x hat
      | succ i => cases hc
  induction h with
  | leaf _ => exact fun _ => plain rfl (by rintro _ _ ⟨⟩) True.intro (fun i c hc => by cases hc)
  | distLeaf => exact fun _ => plain rfl (by rintro _ _ ⟨⟩) True.intro (fun i c hc => by cases hc)
  | @opKeyed tc g red cs T P hs Es d' E' hg hr hb hne h1 h2 hc ih =>
    intro hT
    have hparts := legal_parts (Legal.opKeyed (tc := tc) hg hr hb hne h1 h2 hc) hT
    refine plain rfl (by rintro _ _ ⟨⟩) (fun c hcm => ?_) fun i c hc => ?_
    · obtain ⟨i, hi⟩ := List.mem_iff_getElem?.mp hcm
      obtain ⟨a, ha⟩ := zip h1 hi
      obtain ⟨b, hb⟩ := zip h2 hi
      rw [hparts, legal_parts (hc i c a b hi ha hb) hT]
    · obtain ⟨a, ha⟩ := zip h1 hc
      obtain ⟨b, hb⟩ := zip h2 hc
      exact ih i c a b hc ha hb hT
  | @opSingle tc g red cs Es E' hg hr hne h1 hc ih =>
    intro hT
    have hparts := legal_parts (Legal.opSingle (tc := tc) hg hr hne h1 hc) hT
    refine plain rfl (by rintro _ _ ⟨⟩) (fun c hcm => ?_) fun i c hc => ?_
    · obtain ⟨i, hi⟩ := List.mem_iff_getElem?.mp hcm
      obtain ⟨a, ha⟩ := zip h1 hi
      rw [hparts, legal_parts (hc i c a hi ha) hT]
    · obtain ⟨a, ha⟩ := zip h1 hc
      exact ih i c a hc ha hT
  | union _ h1 _ ih =>
    refine fun hT => plain rfl (by rintro _ _ ⟨⟩) True.intro fun i c hc => ?_
    obtain ⟨a, ha⟩ := zip h1 hc
    exact ih i c a hc ha hT
  | @joinSafe tc m s b p T P d d' hm hs hb h1 h2 ih1 ih2 =>
    intro hT
    have hparts := legal_parts (Legal.joinSafe (tc := tc) hm hs hb h1 h2) hT
    exact plain rfl (by rintro _ _ ⟨⟩) ⟨b, p, rfl, by rw [hparts, legal_parts h2 hT], by rw [legal_parts h1 hT]; exact Nat.one_pos,
      fun e => absurd e hm⟩ (two (ih1 hT) (ih2 hT))
  | @joinSingle tc m s b p P hm hs h1 h2 ih1 ih2 =>
    intro hT
    have hparts := legal_parts (Legal.joinSingle (tc := tc) hm hs h1 h2) hT
    exact plain rfl (by rintro _ _ ⟨⟩) ⟨b, p, rfl, by rw [hparts, legal_parts h2 hT], by rw [legal_parts h1 hT]; exact Nat.one_pos,
      fun e => absurd e hm⟩ (two (ih1 hT) (ih2 hT))
  | @joinPart tc s l r T P d' hs hn hb h1 h2 ih1 ih2 =>
    intro hT
    have hparts := legal_parts (Legal.joinPart (tc := tc) hs hn hb h1 h2) hT
    exact plain rfl (by rintro _ _ ⟨⟩) ⟨l, r, rfl, by rw [hparts, legal_parts h2 hT], by rw [legal_parts h1 hT]; exact legal_parts_pos h1,
      fun _ => by rw [hparts, legal_parts h1 hT]⟩ (two (ih1 hT) (ih2 hT))
  | @opLocal tc g red c T P d d' E E' hg hr hd hc ih =>
    intro hT
    have hparts := legal_parts (Legal.opLocal (tc := tc) hg hr hd hc) hT
    exact plain rfl (by rintro _ _ ⟨⟩) (by rintro x hx; simp only [Plan.children, List.mem_singleton] at hx; subst hx
                                           rw [hparts, legal_parts hc hT]) (one (ih hT))
  | hashRepart _ _ _ ih => exact fun hT => plain rfl (by rintro _ _ ⟨⟩) ⟨_, rfl⟩ (one (ih hT))
  | broadcast _ ih => exact fun hT => plain rfl (by rintro _ _ ⟨⟩) ⟨_, rfl⟩ (one (ih hT))
  | otherRepart _ _ _ ih => exact fun hT => plain rfl (by rintro _ _ ⟨⟩) ⟨_, rfl⟩ (one (ih hT))
  | coalesce _ ih | spm _ ih =>
    exact fun hT => plain rfl (by rintro _ _ ⟨⟩) True.intro (one (ih hT))
  | fetch hk _ _ ih =>
    exact fun hT => plain (by rcases hk with rfl | ⟨le, rfl⟩ <;> rfl)
      (by rcases hk with rfl | ⟨le, rfl⟩ <;> rintro _ _ ⟨⟩) (by rcases hk with rfl | ⟨le, rfl⟩ <;> exact True.intro) (one (ih hT))
  | @ciu tc ws m cs T E k Ps _ hl hm hr ho _ ih =>
    intro hT t x hat
    cases hat with
    | root => exact True.intro
    | @child _ _ _ _ i c _ _ hc hat =>
      obtain ⟨P, hP⟩ := zip hl hc
      have hi := (List.getElem?_eq_some_iff.mp hc).1
      have : childCount (Row := Row) (.ciu ws m) T i = k i := unionCount_eq hr hi
      rw [this] at hat
      exact ih i c P hc hP (hr.1 i hi) t x hat
  | @shuffle tc h p N num c T P E hp hN hph hpos hc ih =>
    exact fun hT => net (k := .shuffle h p N num) rfl ⟨c, rfl⟩ hpos.2 (ih hN)
  | @netCoalesce tc p N num c T P E hN hp hh hnet hc ih =>
    intro hT
    have := legal_parts hc hN
    refine net (k := .netCoalesce p N num) rfl ⟨c, rfl, hT, ?_, ?_⟩ (by rw [hh]; intro h; cases h) (ih hN)
    · rw [this]; exact legal_parts_pos hc
    · rw [this]; exact hp
  | @netBroadcast tc p N num c T E hN hb hc ih =>
    intro hT
    have := legal_parts hc hN
    obtain ⟨n, tc', y, rfl, _⟩ := hb
    exact net (k := .netBroadcast p N num) rfl ⟨_, rfl, by rw [this]; exact legal_parts_pos hc⟩ (fun _ => rfl) (ih hN)
  | forget _ ih => exact ih
  | trivial _ ih => exact ih
  | repFlip _ ih => exact ih
  | coarsen _ _ ih => exact ih

end DD.Net
