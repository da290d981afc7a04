/-
A plan without boundaries, once boundaries are injected, is legal.
-/
import Verif.Lemmas.PlanInject

namespace DD.Tree

variable {Row : Type} {env : Env Row}

/-- The conclusion of `Inj.legal`. -/
def Fits (T : Nat) (q : Plan Row) (J : SInfo Row) (A : List Row → Prop) : Prop :=
  ∃ P, Legal true T q ⟨P, J.dist.map (·.1), J.rep, J.eqv⟩
    ∧ (∀ h n, J.dist = some (h, n) → P = n) ∧ (J.one = true → P = 1) ∧ J.eqv.sub (Answer q) A

theorem Legal.withTc {ph : Bool} {T : Nat} {p : Plan Row} {I : Info Row} (h : Legal ph T p I) (t : TaskCount) :
    Legal ph T (p.withTc t) I := by
  induction h with
  | leaf h => exact .leaf h
  | distLeaf h0 h1 h2 h3 h4 => exact .distLeaf h0 h1 h2 h3 h4
  | opLocal a b c d => exact .opLocal a b c d
  | opKeyed a b c d e f g => exact .opKeyed a b c d e f g
  | opSingle a b c d e => exact .opSingle a b c d e
  | joinSafe a b c d e => exact .joinSafe a b c d e
  | joinSingle a b c d => exact .joinSingle a b c d
  | joinPart a b c d e => exact .joinPart a b c d e
  | union a b c => exact .union a b c
  | ciu a b c d e f => exact .ciu a b c d e f
  | hashRepart a b c => exact .hashRepart a b c
  | otherRepart a b c => exact .otherRepart a b c
  | coalesce a => exact .coalesce a
  | spm a => exact .spm a
  | fetch a b c => exact .fetch a b c
  | broadcast a => exact .broadcast a
  | shuffle a b c d e => exact .shuffle a b c d e
  | netCoalesce a b c d e => exact .netCoalesce a b c d e
  | netBroadcast a b c => exact .netBroadcast a b c
  | forget _ ih => exact .forget ih
  | trivial _ ih => exact .trivial ih
  | repFlip _ ih => exact .repFlip ih
  | coarsen h _ ih => exact .coarsen h ih

theorem answer_withTc (p : Plan Row) (t : TaskCount) : Answer (p.withTc t) = Answer p := by
  cases p with | node k tc cs => exact answer_congr rfl fun i c' e c e' => by rw [e] at e'; cases e'; rfl

theorem kind_withTc (p : Plan Row) (t : TaskCount) : (p.withTc t).kind = p.kind := by
  cases p; rfl

/-- `injected_plain` for nodes that do not gather. -/
theorem injected_other (he : EnvOk env) {par k tc} {cs : List (Plan Row)} {q} {J : SInfo Row}
    (hk : k.fans = false) (hn : k.isNet = false) (hc : ∀ ws m, k ≠ .ciu ws m) (hne : cs ≠ [])
    (hpar : k.asParent = .other)
    (hq : inject env par (.node k tc cs) = .ok q)
    (R : Nat → SInfo Row → Prop) (hR : ∀ i < cs.length, ∃ J', R i J')
    (ih : ∀ (i : Nat) c J', cs[i]? = some c → R i J' → ∀ par q, inject env par c = .ok q → Injected env par c q J')
    (hga : J.gathered = true → pinned env k = true ∨ ∃ i < cs.length, ∃ J', R i J' ∧ J'.gathered = true)
    (hlegal : ∀ (t : TaskCount), 1 ≤ t.asUsize → (J.gathered = true → t.asUsize = 1) →
      (pinned env k = true → t.asUsize = 1) → ∀ cs'' : List (Plan Row), cs''.length = cs.length →
      (∀ (i : Nat) c'' c J', cs''[i]? = some c'' → cs[i]? = some c → R i J' → Fits t.asUsize c'' J' (Answer c)) →
      Fits t.asUsize (.node k t cs'') J (Answer (.node k tc cs))) :
    Injected env par (.node k tc cs) q J := by
  refine injected_plain he hk hn hc hne hq
    (fun i c' => i < cs.length ∧ ∀ c J', cs[i]? = some c → R i J' → Inj env c' J' (Answer c)) ?_ ?_ ?_ ?_
  · rintro i c' ⟨hi, h⟩
    obtain ⟨J', hJ'⟩ := hR i hi
    exact (h cs[i] J' (by simp) hJ').pos
  · intro i c c' hc' hi'
    refine ⟨(List.getElem?_eq_some_iff.mp hc').1, ?_⟩
    intro c2 J' hc2 hJ'
    rw [hc'] at hc2; cases hc2
    rw [hpar] at hi'
    exact (ih i c J' hc' hJ' _ _ hi').other
  · intro hg
    rcases hga hg with h | ⟨i, hi, J', hJ', hg'⟩
    · exact .inl h
    · exact .inr ⟨i, hi, fun c' h => (h.2 cs[i] J' (by simp) hJ').gathered hg'⟩
  · intro t ht hg hp cs'' hl hcs
    refine hlegal t ht hg hp cs'' hl ?_
    intro i c'' c J' h1 h2 h3
    obtain ⟨c', ⟨_, hQ⟩, ha, hpr⟩ := hcs i c'' h1
    exact (hQ c J' h2 h3).legal t ha c'' hpr

theorem Fits.parts {T : Nat} {q : Plan Row} {J : SInfo Row} {d} (hT : 0 < T) (h : Fits T q J d) :
    Legal true T q ⟨q.parts, J.dist.map (·.1), J.rep, J.eqv⟩ := by
  obtain ⟨P, l, _, _, _⟩ := h
  have : q.parts = P := by
    obtain ⟨_, _, hg⟩ := l.good hT true
    exact hg.parts
  rw [this]; exact l

theorem two_of_length {α} {l : List α} (h : l.length = 2) : ∃ a b, l = [a, b] := by
  match l, h with
  | [a, b], _ => exact ⟨a, b, rfl⟩

theorem one_of_length {α} {l : List α} (h : l.length = 1) : ∃ a, l = [a] := by
  match l, h with
  | [a], _ => exact ⟨a, rfl⟩

/-- The unary nodes. -/
theorem injected_one (he : EnvOk env) {par k tc} {c : Plan Row} {q} {J J' : SInfo Row}
    (hk : k.fans = false) (hn : k.isNet = false) (hc : ∀ ws m, k ≠ .ciu ws m)
    (hpar : k.asParent = .other)
    (hq : inject env par (.node k tc [c]) = .ok q)
    (ih : ∀ par q, inject env par c = .ok q → Injected env par c q J')
    (hga : J.gathered = true → J'.gathered = true)
    (hlegal : ∀ (t : TaskCount), 1 ≤ t.asUsize → (J.gathered = true → t.asUsize = 1) →
      ∀ c'', Fits t.asUsize c'' J' (Answer c) → Fits t.asUsize (.node k t [c'']) J (Answer (.node k tc [c]))) :
    Injected env par (.node k tc [c]) q J := by
  refine injected_other he hk hn hc (by simp) hpar hq (fun _ x => x = J') (fun _ _ => ⟨J', rfl⟩) ?_ ?_ ?_
  · rintro i c2 J2 hc2 rfl
    match i, hc2 with
    | 0, hc2 => simp at hc2; subst hc2; exact ih
  · intro hg
    exact .inr ⟨0, by simp, J', rfl, hga hg⟩
  · intro t ht hg _ cs'' hl hcs
    obtain ⟨c'', rfl⟩ := one_of_length (by simpa using hl)
    exact hlegal t ht hg c'' (hcs 0 c'' c J' rfl rfl rfl)

/-- The binary nodes. -/
theorem injected_two (he : EnvOk env) {par k tc} {a b : Plan Row} {q} {J Ja Jb : SInfo Row}
    (hk : k.fans = false) (hn : k.isNet = false) (hc : ∀ ws m, k ≠ .ciu ws m)
    (hpar : k.asParent = .other)
    (hq : inject env par (.node k tc [a, b]) = .ok q)
    (iha : ∀ par q, inject env par a = .ok q → Injected env par a q Ja)
    (ihb : ∀ par q, inject env par b = .ok q → Injected env par b q Jb)
    (hga : J.gathered = true → pinned env k = true ∨ Ja.gathered = true ∨ Jb.gathered = true)
    (hlegal : ∀ (t : TaskCount), 1 ≤ t.asUsize → (J.gathered = true → t.asUsize = 1) →
      (pinned env k = true → t.asUsize = 1) →
      ∀ a'' b'', Fits t.asUsize a'' Ja (Answer a) → Fits t.asUsize b'' Jb (Answer b) →
        Fits t.asUsize (.node k t [a'', b'']) J (Answer (.node k tc [a, b]))) :
    Injected env par (.node k tc [a, b]) q J := by
  refine injected_other he hk hn hc (by simp) hpar hq (fun i x => x = if i = 0 then Ja else Jb)
    (fun _ _ => ⟨_, rfl⟩) ?_ ?_ ?_
  · rintro i c2 J2 hc2 rfl
    match i, hc2 with
    | 0, hc2 => simp at hc2; subst hc2; exact iha
    | 1, hc2 => simp at hc2; subst hc2; exact ihb
  · intro hg
    rcases hga hg with h | h | h
    · exact .inl h
    · exact .inr ⟨0, by simp, _, rfl, by simpa using h⟩
    · exact .inr ⟨1, by simp, _, rfl, by simpa using h⟩
  · intro t ht hg hp cs'' hl hcs
    obtain ⟨a'', b'', rfl⟩ := two_of_length (by simpa using hl)
    exact hlegal t ht hg hp a'' b'' (hcs 0 a'' a _ rfl rfl rfl) (hcs 1 b'' b _ rfl rfl rfl)

theorem Injected.weaken {par} {p q : Plan Row} {J J' : SInfo Row} (h : Injected env par p q J)
    (hf : ∀ T q', Fits T q' J (Answer p) → Fits T q' J' (Answer p)) (hg : J'.gathered = true → J.gathered = true) :
    Injected env par p q J' := by
  have hi : ∀ q, Inj env q J (Answer p) → Inj env q J' (Answer p) := fun q i =>
    ⟨i.pos, fun h => i.gathered (hg h), fun t ht q' hq' => hf _ _ (i.legal t ht q' hq')⟩
  unfold Injected at h ⊢
  split
  · rename_i hk; rw [if_pos hk] at h; exact hi q h
  · rename_i hk; rw [if_neg hk] at h
    obtain ⟨q0, o, h1, h2, h3, h4⟩ := h
    exact ⟨q0, o, h1, hi q0 h2, h3, h4⟩

theorem hashRepart_src (he : EnvOk env) {par tc h n o c q one one' E ga} (hn : 0 < n) (h1 : one' = true → n = 1)
    (ih : ∀ par q, inject env par c = .ok q → Injected env par c q ⟨none, one, false, E, ga⟩)
    (hq : inject env par (.node (.hashRepart h n o) tc [c]) = .ok q) :
    Injected env par (.node (.hashRepart h n o) tc [c]) q ⟨some (h, n), one', false, E, false⟩ := by
  unfold Injected
  refine (if_pos (show (Plan.kind _).fans = true from rfl)).mpr ?_
  obtain ⟨cs', d, e1, e2, e3⟩ := inject_inv hq
  obtain ⟨i1, i2⟩ := injectAll_inv e1
  obtain ⟨c', rfl⟩ := one_of_length (by simpa using i1)
  obtain ⟨c0, hc0, hi⟩ := i2 0 c' rfl
  simp at hc0; subst hc0
  have inj : Inj env c' ⟨none, one, false, E, ga⟩ (Answer c) := (ih _ _ hi).other
  obtain ⟨a1, a2, _⟩ := annotate_spec he (k := .hashRepart h n o) (by simp) e2 (cs := [c']) (by simp)
    (by simpa using inj.pos)
  generalize annotate env (.hashRepart h n o) d [c'] = a at *
  change (do
    let (c, t) ← build env (.node (.hashRepart h n o) tc [c]) (.node (.hashRepart h n o) a [c'])
    Except.ok (Plan.node (.shuffle h n t.asUsize 0) (consumerCount env c t) [c])) = Except.ok q at e3
  obtain ⟨⟨c'', s⟩, e4, e5⟩ := bind_ok e3
  cases e5
  obtain ⟨b1, b3, _, b2, _⟩ := build_inv he (q := .node (.hashRepart h n o) a [c']) a1 e4
  refine ⟨b2, by simp, ?_⟩
  intro t' ht' q' hq'
  rw [propagate_net rfl] at hq'
  cases hq'
  obtain ⟨cs'', rfl, l2, p2⟩ := propagate_inv (k := .hashRepart h n o) rfl (by simp) (by simp) b1
  obtain ⟨x, rfl⟩ := one_of_length (by simpa using l2)
  obtain ⟨c1, hc1, hx⟩ := p2 0 x rfl
  simp at hc1; subst hc1
  obtain ⟨P, l, _, _, hd⟩ := inj.legal s (a2 s.asUsize b3 c' (by simp)) x hx
  refine ⟨n, .shuffle hn b3.pos (fun _ => ⟨_, _, x, rfl⟩) ⟨by rintro h' n' _ ⟨⟩; exact hn, fun _ => rfl⟩ l, by simp, h1, ?_⟩
  rw [answer_pass (ansKind_head (.inr rfl)), answer_pass (ansKind_head (.inl rfl)), answer_pass (ansKind_head (.inl rfl))]
  exact hd

theorem broadcast_src (he : EnvOk env) {par tc c q one E ga}
    (ih : ∀ par q, inject env par c = .ok q → Injected env par c q ⟨none, one, false, E, ga⟩)
    (hq : inject env par (.node (.broadcast 1) tc [c]) = .ok q) :
    Injected env par (.node (.broadcast 1) tc [c]) q ⟨none, one, true, E, false⟩ := by
  unfold Injected
  refine (if_pos (show (Plan.kind _).fans = true from rfl)).mpr ?_
  obtain ⟨cs', d, e1, e2, e3⟩ := inject_inv hq
  obtain ⟨i1, i2⟩ := injectAll_inv e1
  obtain ⟨c', rfl⟩ := one_of_length (by simpa using i1)
  obtain ⟨c0, hc0, hi⟩ := i2 0 c' rfl
  simp at hc0; subst hc0
  have inj : Inj env c' ⟨none, one, false, E, ga⟩ (Answer c) := (ih _ _ hi).other
  obtain ⟨a1, a2, _⟩ := annotate_spec he (k := .broadcast 1) (by simp) e2 (cs := [c']) (by simp)
    (by simpa using inj.pos)
  generalize annotate env (.broadcast 1) d [c'] = a at *
  change (do
    let (c, t) ← build env (.node (.broadcast 1) tc [c]) (.node (.broadcast 1) a [c'])
    Except.ok (Plan.node (.netBroadcast c.parts t.asUsize 0) (consumerCount env c t) [c])) = Except.ok q at e3
  obtain ⟨⟨c'', s⟩, e4, e5⟩ := bind_ok e3
  cases e5
  obtain ⟨b1, b3, _, b2, _⟩ := build_inv he (q := .node (.broadcast 1) a [c']) a1 e4
  refine ⟨b2, by simp, ?_⟩
  intro t' ht' q' hq'
  rw [propagate_net rfl] at hq'
  cases hq'
  obtain ⟨cs'', rfl, l2, p2⟩ := propagate_inv (k := .broadcast 1) rfl (by simp) (by simp) b1
  obtain ⟨x, rfl⟩ := one_of_length (by simpa using l2)
  obtain ⟨c1, hc1, hx⟩ := p2 0 x rfl
  simp at hc1; subst hc1
  obtain ⟨P, l, _, ho, hd⟩ := inj.legal s (a2 s.asUsize b3 c' (by simp)) x hx
  have hxp : x.parts = P := by
    obtain ⟨_, _, hg⟩ := l.good b3.pos true
    exact hg.parts
  have hparts : (Plan.node (.broadcast 1) s [x]).parts = P := by
    rw [← hxp]
    unfold Plan.parts
    rw [run_node]
    show (run x).parts * 1 = _
    omega
  simp only [Plan.tc] at hparts ⊢
  rw [hparts]
  refine ⟨P, .netBroadcast b3.pos ⟨1, _, x, rfl, fun _ => rfl⟩ l, by simp, ho, ?_⟩
  rw [answer_pass (ansKind_head (.inr rfl)), answer_pass (ansKind_head (.inl rfl)), answer_pass (ansKind_head (.inl rfl))]
  exact hd

theorem ciu_src (he : EnvOk env) {par tc ws m} {cs : List (Plan Row)} {q} {E : RowEq Row} {gs : List Bool}
    (hne : cs ≠ []) (hgs : cs.length = gs.length)
    (ih : ∀ (i : Nat) c b, cs[i]? = some c → gs[i]? = some b → ∀ par q, inject env par c = .ok q →
      Injected env par c q ⟨none, false, false, E, b⟩)
    (hq : inject env par (.node (.ciu ws m) tc cs) = .ok q) :
    Injected env par (.node (.ciu ws m) tc cs) q ⟨none, false, false, E, false⟩ := by
  unfold Injected
  rw [if_neg (by simp [Plan.kind, Kind.fans])]
  obtain ⟨cs', d, e1, e2, e3⟩ := inject_inv hq
  obtain ⟨i1, i2⟩ := injectAll_inv e1
  have inj : ∀ (i : Nat) c' c, cs'[i]? = some c' → cs[i]? = some c →
      ∃ b, Inj env c' ⟨none, false, false, E, b⟩ (Answer c) := by
    intro i c' c h1 h2
    obtain ⟨c0, h3, h4⟩ := i2 i c' h1
    rw [h2] at h3; cases h3
    have hi := (List.getElem?_eq_some_iff.mp h2).1
    exact ⟨_, (ih i c (gs[i]'(by omega)) h2 (by simp) _ _ h4).other⟩
  have hne' : cs' ≠ [] := by
    intro h; subst h; simp at i1; exact hne (List.length_eq_zero_iff.mp i1.symm)
  have hpos' : ∀ c ∈ cs', 1 ≤ c.tc.asUsize := by
    intro c hcm
    obtain ⟨i, hi, rfl⟩ := List.getElem_of_mem hcm
    obtain ⟨b, h⟩ := inj i cs'[i] (cs[i]'(by omega)) (by simp) (by simp)
    exact h.pos
  have hprop : ∀ (a t : TaskCount) q', propagate env (.node (.ciu ws m) a cs') t = .ok q' →
      ∃ n cs'' n', Union.Node.make Union.split (cs'.map Plan.parts) (cs'.map fun c => weightOf c.tc) t.asUsize = .ok n
        ∧ propagateEach env cs' (n.childTaskCounts.map .maximum) = .ok cs''
        ∧ n.withNewChildren (cs''.map Plan.parts) = .ok n' ∧ q' = .node (.ciu n'.weights n'.map) t cs'' := by
    intro a t q' h
    rw [propagate] at h
    have hempty : cs'.isEmpty = false := by
      cases cs' with
      | nil => exact absurd rfl hne'
      | cons => rfl
    simp only [hempty, Kind.isNet, Bool.false_eq_true, if_false] at h
    obtain ⟨n, h1, h⟩ := bind_ok h
    obtain ⟨cs'', h2, h⟩ := bind_ok h
    obtain ⟨n', h3, h⟩ := bind_ok h
    cases h
    exact ⟨n, cs'', n', h1, h2, h3, rfl⟩
  refine ⟨.node (.ciu ws m) (annotate env (.ciu ws m) d cs') cs', _, rfl, ⟨annotate_ciu (ws := ws) (m := m) he hne' hpos', by simp, ?_⟩, e3, ?_⟩
  · intro t ht q' hq'
    obtain ⟨n, cs'', n', h1, h2, h3, rfl⟩ := hprop _ _ _ hq'
    obtain ⟨m1, m2, m3, m4⟩ := Union.make_map h1
    have hacc := Union.accepted_of_split m2
    obtain ⟨mm, s1, s2, s3, _⟩ := Union.split_spec hacc
    rw [m2] at s1; cases s1
    generalize hk : (fun c => max 1 ((Union.taskCounts (Union.shares (cs'.map fun c => weightOf c.tc) t.asUsize)
      ((cs'.map fun c => weightOf c.tc).map (·.max)) t.asUsize).getD c 0)) = k at s3
    have hcap := (Union.C15_caps_budget_proportion _ _ hacc _ k m2 s3).1
    have s3' : Union.RunsAll (cs'.map Plan.parts).length k n.map := by rw [m1]; exact s3
    obtain ⟨c1, c2⟩ := Union.C53_child_task_counts _ _ _ _ k h1 s3'
    simp only [List.length_map] at c1 c2
    obtain ⟨p1, p2⟩ := propagateEach_inv (by simp [c1]) h2
    obtain ⟨n2, r1, r2, r3, r4⟩ := Union.C53_rewrite_keeps_assignment _ (cs''.map Plan.parts) _ _ _ h1 (by simp [p1])
    rw [r1] at h3; cases h3
    have hfit : ∀ (i : Nat) c'' c, cs''[i]? = some c'' → cs[i]? = some c →
        Fits (k i) c'' ⟨none, false, false, E, false⟩ (Answer c) := by
      intro i c'' c hc'' hc
      obtain ⟨c', t', x1, x2, x3⟩ := p2 i c'' hc''
      have hi : i < cs'.length := (List.getElem?_eq_some_iff.mp x1).1
      simp only [List.getElem?_map, Option.map_eq_some_iff] at x2
      obtain ⟨v, x2, rfl⟩ := x2
      have hv : v = k i := by
        rw [← c2 i hi, List.getD_eq_getElem?_getD, x2]; rfl
      subst hv
      obtain ⟨b, hin⟩ := inj i c' c x1 hc
      have hki : 1 ≤ k i := s3.1 i (by simpa using hi)
      have hal : Allowed c'.tc (k i) := by
        cases htc : c'.tc with
        | desired w => exact hki
        | maximum w =>
          refine ⟨hki, hcap i (weightOf c'.tc) w ?_ ?_⟩
          · simp [x1]
          · rw [htc]; rfl
      exact hin.legal (.maximum (k i)) hal c'' x3
    refine ⟨_, .ciu (Ps := cs''.map Plan.parts) (k := k) ?_ (by simp) (by rw [r2]; exact s2) ?_
      (by rw [r2]; exact Union.C14_no_child_twice _ _ _ (Union.make_map h1).2.1) ?_, by simp, by simp, ?_⟩
    · intro h; subst h; simp at p1; exact hne' (List.length_eq_zero_iff.mp p1.symm)
    · rw [r2, p1, ← List.length_map (f := fun c : Plan Row => weightOf c.tc)]; exact s3
    · intro i c P hi hP
      have hlt := (List.getElem?_eq_some_iff.mp hi).1
      simp only [List.getElem?_map, hi, Option.map_some, Option.some.injEq] at hP
      subst hP
      exact (hfit i c (cs[i]'(by omega)) hi (by simp)).parts (s3.1 i (by simp; omega))
    · exact answer_sub_union (.inr ⟨_, _, rfl⟩) (.inr ⟨_, _, rfl⟩) (by omega) fun i c' c h1 h2 =>
        (hfit i c' c h1 h2).choose_spec.2.2.2
  · intro _ t q' _ hq'
    obtain ⟨n, cs'', n', h1, h2, h3, rfl⟩ := hprop _ _ _ hq'
    exact ⟨rfl, rfl⟩

/-- Placing boundaries in a plan that is ready for it. -/
theorem inject_src (he : EnvOk env) {p : Plan Row} {J : SInfo Row} (h : Src env .post p J) :
    ∀ par q, inject env par p = .ok q → Injected env par p q J := by
  induction h with
  | @leaf tc ps one ga hne hone hd =>
    intro par q hq
    obtain ⟨cs', d, e1, e2, e3⟩ := inject_inv hq
    rw [injectAll] at e1; cases e1
    obtain ⟨hs, hg⟩ := hd d e2
    unfold Injected
    rw [if_neg (by simp [Plan.kind, Kind.fans])]
    have hpos : 1 ≤ (annotate env (.leaf ps) d []).asUsize := by
      unfold annotate
      apply limit_pos _ he.maxTasks
      cases d with
      | none => exact Nat.le_refl _
      | some t => exact he.desired _ t e2
    have hprop : ∀ (t : TaskCount) q', Allowed (annotate env (.leaf ps) d []) t.asUsize →
        propagate env (.node (.leaf ps) (annotate env (.leaf ps) d []) []) t = .ok q' →
        Fits t.asUsize q' ⟨none, one, false, .perm, ga⟩ (fun d => d = ps.flatten) ∧ q'.kind.isHead = false ∧ q'.kind.isNet = false := by
      intro t q' ht hq'
      rw [propagate] at hq'
      · simp only [List.isEmpty_nil, if_true] at hq'
        obtain ⟨s1, s2⟩ := hs _ ht (annotate env (.leaf ps) d [])
        cases hsc : env.scale (.node (.leaf ps) (annotate env (.leaf ps) d []) []) t.asUsize with
        | none =>
          rw [hsc] at hq'
          cases hq'
          rw [s1 hsc]
          exact ⟨⟨_, .leaf hne, by simp, hone, fun d hd => by
            obtain ⟨_, _, hx⟩ := answer_node.mp hd; exact ⟨d, hx, .refl _⟩⟩, rfl, rfl⟩
        | some r =>
          cases r with
          | error => rw [hsc] at hq'; cases hq'
          | ok p' =>
            rw [hsc] at hq'
            cases hq'
            obtain ⟨k1, k2, P, l, o, dd⟩ := s2 p' hsc
            rw [kind_withTc]
            exact ⟨⟨P, l.withTc t, by simp, o, by
              rw [answer_withTc]; exact fun d hd => ⟨_, rfl, dd d hd⟩⟩, k1, k2⟩
      · intro ws m e; cases e
    exact ⟨.node (.leaf ps) (annotate env (.leaf ps) d []) [], _, rfl, ⟨hpos, hg, fun t ht q' hq' => by
      have := (hprop t q' ht hq').1
      have e : Answer (.node (.leaf ps) tc []) = fun d => d = ps.flatten := by
        funext d
        apply propext
        rw [answer_node]
        exact ⟨fun ⟨_, _, h⟩ => h, fun h => ⟨[], ⟨rfl, by simp⟩, h⟩⟩
      rwa [e]⟩, e3, fun _ t q' ht hq' => (hprop t q' ht hq').2⟩
  | @opLocal tc g red c d d' one ga E E' hg hr hd _ ih =>
    intro par q hq
    refine injected_one he rfl rfl (by simp) rfl hq ih id ?_
    rintro t ht _ c'' ⟨P, l, h1, h2, h3⟩
    refine ⟨P, .opLocal hg hr ?_ l, ?_, h2, ?_⟩
    · intro h' hh
      simp only [Option.map_eq_some_iff] at hh
      obtain ⟨⟨h1', P'⟩, rfl, rfl⟩ := hh
      obtain ⟨h, rfl, hb⟩ := hd _ _ rfl
      exact ⟨h, rfl, hb⟩
    · rintro h' P' hh
      obtain ⟨h, hd', _⟩ := hd h' P' hh
      exact h1 h P' hd'
    · exact answer_sub1 hg.congr h3
  | @opKeyed tc g red cs P d' ga hs Es gs E' hk hr hd hne hl hl' hl'' hga _ ih =>
    intro par q hq
    refine injected_other he rfl rfl (by simp) hne rfl hq
      (fun i J' => ∃ h E b, hs[i]? = some h ∧ Es[i]? = some E ∧ gs[i]? = some b ∧ J' = ⟨some (h, P), false, false, E, b⟩)
      ?_ ?_ ?_ ?_
    · intro i hi
      exact ⟨_, hs[i]'(by omega), Es[i]'(by omega), gs[i]'(by omega), by simp, by simp, by simp, rfl⟩
    · rintro i c J' hc ⟨h, E, b, x1, x2, x3, rfl⟩
      exact ih i c h E b hc x1 x2 x3
    · intro hg
      obtain ⟨i, hi, hgi⟩ := List.getElem_of_mem (hga hg)
      exact .inr ⟨i, by omega, _, ⟨hs[i]'(by omega), Es[i]'(by omega), gs[i]'(by omega), by simp, by simp, by simp, rfl⟩, hgi⟩
    · intro t ht _ _ cs'' hl2 hcs
      have hf : ∀ (i : Nat) c'' h E, cs''[i]? = some c'' → hs[i]? = some h → Es[i]? = some E →
          Legal true t.asUsize c'' ⟨P, some h, false, E⟩ ∧ ∀ c, cs[i]? = some c → E.sub (Answer c'') (Answer c) := by
        intro i c'' h E x1 x2 x3
        have hi := (List.getElem?_eq_some_iff.mp x1).1
        obtain ⟨P', l, o, _, hd'⟩ := hcs i c'' (cs[i]'(by omega)) _ x1 (by simp)
          ⟨h, E, gs[i]'(by omega), x2, x3, by simp, rfl⟩
        obtain rfl := o h P rfl
        refine ⟨l, ?_⟩
        intro c hc
        rw [List.getElem?_eq_getElem (by omega)] at hc
        cases hc
        exact hd'
      refine ⟨P, .opKeyed hk hr ?_ ?_ (by omega) (by omega) fun i c h E x1 x2 x3 => (hf i c h E x1 x2 x3).1, ?_, by simp, ?_⟩
      · intro h' hh
        simp only [Option.map_eq_some_iff] at hh
        obtain ⟨⟨h1', P'⟩, rfl, rfl⟩ := hh
        exact (hd _ _ rfl).2
      · intro h; subst h; simp at hl2; exact hne (List.length_eq_zero_iff.mp hl2.symm)
      · intro h' P' hh; exact (hd h' P' hh).1.symm
      · refine answer_sub hk.congr hl2 hl' ?_
        intro i c' c E x1 x2 x3
        have hi := (List.getElem?_eq_some_iff.mp x1).1
        exact (hf i c' (hs[i]'(by omega)) E x1 (by simp) x3).2 c x2
  | @opSingle tc g red cs Es gs E' hw hr hne hl hl' hga _ ih =>
    intro par q hq
    refine injected_other he rfl rfl (by simp) hne rfl hq
      (fun i J' => ∃ E b, Es[i]? = some E ∧ gs[i]? = some b ∧ J' = ⟨none, true, false, E, b⟩)
      ?_ ?_ ?_ ?_
    · intro i hi
      exact ⟨_, Es[i]'(by omega), gs[i]'(by omega), by simp, by simp, rfl⟩
    · rintro i c J' hc ⟨E, b, x2, x3, rfl⟩
      exact ih i c E b hc x2 x3
    · intro hg
      obtain ⟨i, hi, hgi⟩ := List.getElem_of_mem hga
      exact .inr ⟨i, by omega, _, ⟨Es[i]'(by omega), gs[i]'(by omega), by simp, by simp, rfl⟩, hgi⟩
    · intro t ht hg _ cs'' hl2 hcs
      have hT : t.asUsize = 1 := hg rfl
      have hf : ∀ (i : Nat) c'' E, cs''[i]? = some c'' → Es[i]? = some E →
          Legal true t.asUsize c'' ⟨1, none, false, E⟩ ∧ ∀ c, cs[i]? = some c → E.sub (Answer c'') (Answer c) := by
        intro i c'' E x1 x3
        have hi := (List.getElem?_eq_some_iff.mp x1).1
        obtain ⟨P', l, _, o, hd'⟩ := hcs i c'' (cs[i]'(by omega)) _ x1 (by simp)
          ⟨E, gs[i]'(by omega), x3, by simp, rfl⟩
        obtain rfl := o rfl
        refine ⟨l, ?_⟩
        intro c hc
        rw [List.getElem?_eq_getElem (by omega)] at hc
        cases hc
        exact hd'
      rw [hT] at hf ⊢
      refine ⟨1, .opSingle hw hr ?_ (by omega) fun i c E x1 x3 => (hf i c E x1 x3).1, by simp, by simp, ?_⟩
      · intro h; subst h; simp at hl2; exact hne (List.length_eq_zero_iff.mp hl2.symm)
      · refine answer_sub hw hl2 hl ?_
        intro i c' c E x1 x2 x3
        exact (hf i c' E x1 x3).2 c x2
  | @joinSafe tc m s b p d d' one oneB repB ga gaB hm hs hb hd _ h1 h2 h3 _ _ ihb ihp =>
    intro par q hq
    obtain ⟨rfl, rfl⟩ := h2 rfl
    refine injected_two he rfl rfl (by simp) rfl hq ihb ihp (fun h => .inr (.inr h)) ?_
    rintro t ht _ _ a'' b'' ⟨P1, l1, _, o1, d1⟩ ⟨P, l2, n2, o2, d2⟩
    obtain rfl := o1 rfl
    refine ⟨P, .joinSafe hm hs ?_ l1 l2, ?_, o2, ?_⟩
    · intro h' hh
      simp only [Option.map_eq_some_iff] at hh
      obtain ⟨⟨h1', P'⟩, rfl, rfl⟩ := hh
      obtain ⟨h, rfl, hb⟩ := hd _ _ rfl
      exact ⟨h, rfl, hb⟩
    · intro h' P' hh
      obtain ⟨h, hd', _⟩ := hd h' P' hh
      exact n2 h P' hd'
    · exact answer_sub_join (safe_unordered hs) d1 d2
  | @joinPinned tc m s b p one repB ga gaB hm hpin hu _ _ _ _ _ _ ihb ihp =>
    intro par q hq
    refine injected_two he rfl rfl (by simp) rfl hq ihb ihp (fun _ => .inl hpin) ?_
    rintro t ht hg _ a'' b'' ⟨P1, l1, _, o1, d1⟩ ⟨P, l2, n2, o2, d2⟩
    obtain rfl := o1 rfl
    have hT : t.asUsize = 1 := hg rfl
    rw [hT] at l1 l2 ⊢
    refine ⟨P, .joinSingle hm hu l1.repFlip l2, by simp, o2, ?_⟩
    exact answer_sub_join hu d1 d2
  | joinCollect h => cases h
  | joinNested h => cases h
  | @joinPart tc s l r P d' ga gaL gaR heq hnull hd hga _ _ ihl ihr =>
    intro par q hq
    refine injected_two he rfl rfl (by simp) rfl hq ihl ihr (fun h => .inr (hga h)) ?_
    rintro t ht hg _ a'' b'' ⟨P1, l1, n1, _, d1⟩ ⟨P2, l2, n2, _, d2⟩
    obtain rfl := n1 _ _ rfl
    obtain rfl := n2 _ _ rfl
    refine ⟨P2, .joinPart heq hnull ?_ l1 l2, ?_, by simp, ?_⟩
    · intro h' hh
      simp only [Option.map_eq_some_iff] at hh
      obtain ⟨⟨h1', P'⟩, rfl, rfl⟩ := hh
      exact (hd _ _ rfl).2
    · intro h' P' hh; exact (hd h' P' hh).1.symm
    · exact answer_sub_join (unordered_of_none hnull) d1 d2
  | @union tc cs E gs hne hl _ ih =>
    intro par q hq
    refine injected_other he rfl rfl (by simp) hne rfl hq
      (fun i J' => ∃ b, gs[i]? = some b ∧ J' = ⟨none, false, false, E, b⟩) ?_ ?_ ?_ ?_
    · intro i hi
      exact ⟨_, gs[i]'(by omega), by simp, rfl⟩
    · rintro i c J' hc ⟨b, x3, rfl⟩
      exact ih i c b hc x3
    · intro hg; cases hg
    · intro t ht _ _ cs'' hl2 hcs
      have hf : ∀ (i : Nat) c'' c, cs''[i]? = some c'' → cs[i]? = some c →
          ∃ b, Fits t.asUsize c'' ⟨none, false, false, E, b⟩ (Answer c) := by
        intro i c'' c x1 x2
        have hi := (List.getElem?_eq_some_iff.mp x2).1
        exact ⟨_, hcs i c'' c _ x1 x2 ⟨gs[i]'(by omega), by simp, rfl⟩⟩
      refine ⟨_, .union (Ps := cs''.map Plan.parts) ?_ (by simp) ?_, by simp, by simp, ?_⟩
      · intro h; subst h; simp at hl2; exact hne (List.length_eq_zero_iff.mp hl2.symm)
      · intro i c P hi hP
        have hlt := (List.getElem?_eq_some_iff.mp hi).1
        simp only [List.getElem?_map, hi, Option.map_some, Option.some.injEq] at hP
        subst hP
        obtain ⟨b, h⟩ := hf i c (cs[i]'(by omega)) hi (by simp)
        exact h.parts ht
      · exact answer_sub_union (.inl rfl) (.inl rfl) hl2 fun i c' c h1 h2 =>
          (hf i c' c h1 h2).choose_spec.choose_spec.2.2.2
  | ciu _ hne hl _ ih => intro par q hq; exact ciu_src he hne hl ih hq
  | hashRepart hn h1 _ ih => intro par q hq; exact hashRepart_src he hn h1 ih hq
  | @otherRepart tc n deal c one one' E ga hn h1 hdeal _ ih =>
    intro par q hq
    refine injected_one he rfl rfl (by simp) rfl hq ih id ?_
    rintro t ht _ c'' ⟨P, l, _, _, h3⟩
    exact ⟨n, .otherRepart hn hdeal l, by simp, h1, answer_sub_pass (fun _ _ => Iff.rfl) (fun _ _ => Iff.rfl) h3⟩
  | @gather tc k c d one rep E ga ga' hk hother hga' hrep _ ih =>
    intro par q hq
    have hkk : k.fans = false ∧ k.isNet = false ∧ (∀ ws m, k ≠ .ciu ws m) ∧ k.asParent = .gathers := by
      rcases hk with rfl | ⟨le, rfl⟩ <;> exact ⟨rfl, rfl, by simp, rfl⟩
    obtain ⟨k1, k2, k3, k4⟩ := hkk
    have hpin : pinned env k = false := by rcases hk with rfl | ⟨le, rfl⟩ <;> rfl
    refine injected_plain he k1 k2 k3 (by simp) hq
      (fun _ c' => ∃ d1 one1 ga1, Inj env c' ⟨d1, one1, rep, E, ga1⟩ (Answer c) ∧ (ga' = true → ga1 = true)) ?_ ?_ ?_ ?_
    · rintro i c' ⟨_, _, _, h, _⟩; exact h.pos
    · intro i c0 c' hc0 hi
      match i, hc0 with
      | 0, hc0 =>
        simp at hc0; subst hc0
        rw [k4] at hi
        rcases (ih _ _ hi).gathers he hother with ⟨hf, h⟩ | ⟨hf, h⟩
        · refine ⟨_, _, _, h, ?_⟩
          intro hg
          exfalso
          obtain ⟨x1, x2⟩ := hga' hg
          cases hck : c.kind <;> simp [hck, Kind.fans] at hf
          · exact x1 _ _ _ hck
          · exact x2 _ hck
        · have hr : rep = false := by
            cases rep with
            | false => rfl
            | true =>
              obtain ⟨n, hn⟩ := hrep rfl
              rw [hn] at hf; simp [Kind.fans] at hf
          subst hr
          exact ⟨_, _, _, h rfl, fun _ => rfl⟩
    · intro hg
      exact .inr ⟨0, by simp, fun c' h => by
        obtain ⟨_, _, ga1, h, hgg⟩ := h
        exact h.gathered (hgg hg)⟩
    · intro t ht _ _ cs'' hl hcs
      obtain ⟨c'', rfl⟩ := one_of_length (by simpa using hl)
      obtain ⟨c', ⟨d1, one1, ga1, hin, _⟩, ha, hpr⟩ := hcs 0 c'' rfl
      obtain ⟨P, l, _, _, hd⟩ := hin.legal t ha c'' hpr
      have hd' : E.sub (Answer (.node k t [c''])) (Answer (.node k tc [c])) := by
        have : ∀ ds d, ansKind k ds d ↔ d = ds.getD 0 [] := by
          intro ds d; rcases hk with rfl | ⟨le, rfl⟩ <;> exact Iff.rfl
        exact answer_sub_pass this this hd
      have l' : Legal true t.asUsize c'' ⟨P, none, rep, E⟩ := l.forget
      refine ⟨1, ?_, by simp, by simp, hd'⟩
      rcases hk with rfl | ⟨le, rfl⟩
      · exact .coalesce l'
      · exact .spm l'
  | @fetch tc k g c d one E E' ga hk hg hother hh hbc _ ih =>
    intro par q hq
    have hkk : k.fans = false ∧ k.isNet = false ∧ (∀ ws m, k ≠ .ciu ws m) ∧ k.asParent = .gathers := by
      rcases hk with rfl | ⟨le, rfl⟩ <;> exact ⟨rfl, rfl, by simp, rfl⟩
    obtain ⟨k1, k2, k3, k4⟩ := hkk
    refine injected_plain he k1 k2 k3 (by simp) hq
      (fun _ c' => ∃ d1 one1, Inj env c' ⟨d1, one1, false, E, true⟩ (Answer c)) ?_ ?_ ?_ ?_
    · rintro i c' ⟨_, _, h⟩; exact h.pos
    · intro i c0 c' hc0 hi
      match i, hc0 with
      | 0, hc0 =>
        simp at hc0; subst hc0
        rw [k4] at hi
        rcases (ih _ _ hi).gathers he hother with ⟨hf, h⟩ | ⟨hf, h⟩
        · exfalso
          cases hck : c.kind <;> simp [hck, Kind.fans] at hf
          · exact hh _ _ _ hck
          · exact hbc _ hck
        · exact ⟨_, _, h rfl⟩
    · intro hg
      exact .inr ⟨0, by simp, fun c' h => by
        obtain ⟨_, _, h⟩ := h
        exact h.gathered rfl⟩
    · intro t ht h1 _ cs'' hl hcs
      obtain ⟨c'', rfl⟩ := one_of_length (by simpa using hl)
      obtain ⟨c', ⟨d1, one1, hin⟩, ha, hpr⟩ := hcs 0 c'' rfl
      obtain ⟨P, l, _, _, hd⟩ := hin.legal t ha c'' hpr
      rw [h1 rfl] at l ⊢
      refine ⟨1, .fetch hk hg l.forget, by simp, by simp, answer_sub1 ?_ hd⟩
      intro a b x e hx
      rcases hk with rfl | ⟨le, rfl⟩ <;> exact hg [a] [b] x ⟨e, trivial⟩ hx
  | broadcast _ _ ih => intro par q hq; exact broadcast_src he ih hq
  | @forget p d one rep E ga d' one' ga' _ h1 h2 h3 ih =>
    intro par q hq
    refine (ih par q hq).weaken ?_ h3
    rintro T q' ⟨P, l, n, o, dd⟩
    rcases h1 with rfl | rfl
    · exact ⟨P, l, n, fun h => o (h2 h), dd⟩
    · exact ⟨P, l.forget, by simp, fun h => o (h2 h), dd⟩
  | @coarsen p d one rep E E' ga hE _ ih =>
    intro par q hq
    refine (ih par q hq).weaken ?_ id
    rintro T q' ⟨P, l, n, o, dd⟩
    exact ⟨P, l.coarsen hE, n, o, RowEq.sub_mono hE dd⟩

end DD.Tree
