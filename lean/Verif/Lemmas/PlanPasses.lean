/-
The passes before boundaries are placed keep a plan covered by `Src`, and its meaning.
-/
import Verif.Lemmas.PlanSource
import Verif.Lemmas.PlanReduce

namespace DD.Tree

variable {Row : Type} {env : Env Row}

/-! ### On a single node -/

/-- A plan given to the planner can run on a single node. -/
theorem Src.single {ph : Phase} {p : Plan Row} {J : SInfo Row} (h : Src env ph p J) (hph : ph = .pre) :
    ∃ P, Legal false 1 p ⟨P, J.dist.map (·.1), J.rep, J.eqv⟩
      ∧ (∀ h n, J.dist = some (h, n) → P = n) ∧ (J.one = true → P = 1) := by
  induction h with
  | leaf hne hone _ => exact ⟨_, .leaf hne, by simp, hone⟩
  | @opLocal tc g red c d d' one ga E E' hg hr hd _ ih =>
    obtain ⟨P, l, n, o⟩ := ih
    refine ⟨P, .opLocal hg hr ?_ l, ?_, o⟩
    · intro h' hh
      simp only [Option.map_eq_some_iff] at hh
      obtain ⟨⟨h1', P'⟩, rfl, rfl⟩ := hh
      obtain ⟨h, rfl, hb⟩ := hd _ _ rfl
      exact ⟨h, rfl, hb⟩
    · rintro h' P' hh
      obtain ⟨h, hd', _⟩ := hd h' P' hh
      exact n h P' hd'
  | @opKeyed tc g red cs P d' ga hs Es gs E' hk hr hd hne hl hl' hl'' hga _ ih =>
    refine ⟨P, .opKeyed hk hr ?_ hne hl hl' ?_, ?_, by simp⟩
    · intro h' hh
      simp only [Option.map_eq_some_iff] at hh
      obtain ⟨⟨h1', P'⟩, rfl, rfl⟩ := hh
      exact (hd _ _ rfl).2
    · intro i c h E x1 x2 x3
      have hi := (List.getElem?_eq_some_iff.mp x1).1
      obtain ⟨P', l, n, _⟩ := ih i c h E (gs[i]'(by omega)) x1 x2 x3 (by simp)
      obtain rfl := n _ _ rfl
      exact l
    · intro h' P' hh; exact (hd h' P' hh).1.symm
  | @opSingle tc g red cs Es gs E' hw hr hne hl hl' hga _ ih =>
    refine ⟨1, .opSingle hw hr hne hl ?_, by simp, by simp⟩
    intro i c E x1 x3
    have hi := (List.getElem?_eq_some_iff.mp x1).1
    obtain ⟨P', l, _, o⟩ := ih i c E (gs[i]'(by omega)) x1 x3 (by simp)
    obtain rfl := o rfl
    exact l
  | @joinSafe tc m s b p d d' one oneB repB ga gaB hm hs hb hd _ h1 h2 h3 _ _ ihb ihp =>
    obtain ⟨Pb, lb, _, ob⟩ := ihb
    obtain ⟨P, lp, n, o⟩ := ihp
    obtain rfl := ob (h1 hph)
    refine ⟨P, .joinSafe hm hs ?_ lb.repFlip lp, ?_, o⟩
    · intro h' hh
      simp only [Option.map_eq_some_iff] at hh
      obtain ⟨⟨h1', P'⟩, rfl, rfl⟩ := hh
      obtain ⟨h, rfl, hb⟩ := hd _ _ rfl
      exact ⟨h, rfl, hb⟩
    · intro h' P' hh
      obtain ⟨h, hd', _⟩ := hd h' P' hh
      exact n h P' hd'
  | joinPinned hm hpin hu _ _ _ _ _ _ ihb ihp =>
    obtain ⟨Pb, lb, _, ob⟩ := ihb
    obtain ⟨P, lp, n, o⟩ := ihp
    obtain rfl := ob rfl
    exact ⟨P, .joinSingle hm hu lb.repFlip lp, by simp, o⟩
  | joinCollect _ _ hn _ _ _ ihb ihp =>
    obtain ⟨Pb, lb, _, ob⟩ := ihb
    obtain ⟨P, lp, n, o⟩ := ihp
    obtain rfl := ob rfl
    exact ⟨P, .joinSingle (by simp) (unordered_of_none hn) lb lp, by simp, by simp⟩
  | joinNested _ _ _ _ hn _ _ _ ihb ihp =>
    obtain ⟨Pb, lb, _, ob⟩ := ihb
    obtain ⟨P, lp, n, o⟩ := ihp
    obtain rfl := ob rfl
    exact ⟨P, .joinSingle (by simp) (unordered_of_none hn) lb lp, by simp, by simp⟩
  | @joinPart tc s l r P d' ga gaL gaR heq hnull hd hga _ _ ihl ihr =>
    obtain ⟨P1, l1, n1, _⟩ := ihl
    obtain ⟨P2, l2, n2, _⟩ := ihr
    obtain rfl := n1 _ _ rfl
    obtain rfl := n2 _ _ rfl
    refine ⟨P2, .joinPart heq hnull ?_ l1 l2, ?_, by simp⟩
    · intro h' hh
      simp only [Option.map_eq_some_iff] at hh
      obtain ⟨⟨h1', P'⟩, rfl, rfl⟩ := hh
      exact (hd _ _ rfl).2
    · intro h' P' hh; exact (hd h' P' hh).1.symm
  | @union tc cs E gs hne hl _ ih =>
    refine ⟨_, .union (Ps := cs.map Plan.parts) hne (by simp) ?_, by simp, by simp⟩
    intro i c P hi hP
    have hlt := (List.getElem?_eq_some_iff.mp hi).1
    simp only [List.getElem?_map, hi, Option.map_some, Option.some.injEq] at hP
    subst hP
    obtain ⟨P, l, _, _⟩ := ih i c (gs[i]'(by omega)) hi (by simp)
    have : c.parts = P := by obtain ⟨_, _, hg⟩ := l.good Nat.one_pos true; exact hg.parts
    rw [this]; exact l
  | ciu h => rw [hph] at h; cases h
  | @hashRepart tc h n o c one one' E ga hn h1 _ ih =>
    obtain ⟨P, l, _, _⟩ := ih
    exact ⟨n, .hashRepart hn (by intro h' hh; simp at hh; exact ⟨hh.symm, rfl⟩) l, by simp, h1⟩
  | @otherRepart tc n deal c one one' E ga hn h1 hdeal _ ih =>
    obtain ⟨P, l, _, _⟩ := ih
    exact ⟨n, .otherRepart hn hdeal l, by simp, h1⟩
  | @gather tc k c d one rep E ga ga' hk _ _ _ _ ih =>
    obtain ⟨P, l, _, _⟩ := ih
    have l' : Legal false 1 c ⟨P, none, rep, E⟩ := l.forget
    refine ⟨1, ?_, by simp, by simp⟩
    rcases hk with rfl | ⟨le, rfl⟩
    · exact .coalesce l'
    · exact .spm l'
  | fetch hk hg _ _ _ _ ih =>
    obtain ⟨P, l, _, _⟩ := ih
    exact ⟨1, .fetch hk hg l.forget, by simp, by simp⟩
  | broadcast h => rw [hph] at h; cases h
  | @forget p d one rep E ga d' one' ga' _ h1 h2 h3 ih =>
    obtain ⟨P, l, n, o⟩ := ih
    rcases h1 with rfl | rfl
    · exact ⟨P, l, n, fun h => o (h2 h)⟩
    · exact ⟨P, l.forget, by simp, fun h => o (h2 h)⟩
  | coarsen hE _ ih =>
    obtain ⟨P, l, n, o⟩ := ih
    exact ⟨P, l.coarsen hE, n, o⟩

theorem Src.parts_one {p : Plan Row} {J : SInfo Row} (h : Src env .pre p J) (ho : J.one = true) : p.parts = 1 := by
  obtain ⟨P, l, _, o⟩ := h.single rfl
  rw [← o ho]
  obtain ⟨_, _, hg⟩ := l.good Nat.one_pos true
  exact hg.parts

/-! ### `normalize_collect_joins` -/

theorem normalizeAll_inv : ∀ {cs cs' : List (Plan Row)}, normalizeAll env cs = .ok cs' →
    cs'.length = cs.length ∧ ∀ (i : Nat) c', cs'[i]? = some c' → ∃ c, cs[i]? = some c ∧ normalize env c = .ok c'
  | [], cs', h => by rw [normalizeAll] at h; cases h; simp
  | c :: cs, cs', h => by
    rw [normalizeAll] at h
    obtain ⟨c1, h1, h⟩ := bind_ok h
    obtain ⟨cs1, h2, h⟩ := bind_ok h
    cases h
    obtain ⟨i1, i2⟩ := normalizeAll_inv h2
    refine ⟨by simp [i1], ?_⟩
    intro i x hx
    cases i with
    | zero => simp at hx; subst hx; exact ⟨c, rfl, h1⟩
    | succ i =>
      obtain ⟨y, e1, e2⟩ := i2 i x (by simpa using hx)
      exact ⟨y, by simpa using e1, e2⟩

theorem normalize_inv {k : Kind Row} {tc cs p'} (h : normalize env (.node k tc cs) = .ok p') :
    ∃ cs', cs'.length = cs.length
      ∧ (∀ (i : Nat) c', cs'[i]? = some c' → ∃ c, cs[i]? = some c ∧ normalize env c = .ok c')
      ∧ normalizeNode env ((cs.map Plan.parts).getD 0 0) ((cs.map Plan.parts).getD 1 0) k tc cs' = .ok p' := by
  rw [normalize] at h
  obtain ⟨cs', h1, h⟩ := bind_ok h
  obtain ⟨i1, i2⟩ := normalizeAll_inv h1
  exact ⟨cs', i1, i2, h⟩

def Kind.isJoin : Kind Row → Bool
  | .join .. => true
  | _ => false

theorem normalizeNode_other {k : Kind Row} (hk : k.isJoin = false) {lp rp tc cs} :
    normalizeNode env lp rp k tc cs = .ok (.node k tc cs) := by
  cases k <;> first | rfl | cases hk

/-- The pass turns joins into joins and keeps every other node. -/
theorem normalize_kind {c c' : Plan Row} (h : normalize env c = .ok c') :
    (c.kind.isJoin = true ∧ c'.kind.isJoin = true) ∨ c'.kind = c.kind := by
  cases c with
  | node k tc cs =>
    obtain ⟨cs', _, _, h⟩ := normalize_inv h
    cases hk : k.isJoin with
    | false =>
      rw [normalizeNode_other hk] at h
      cases h; exact .inr rfl
    | true =>
      refine .inl ⟨hk, ?_⟩
      unfold normalizeNode at h
      split at h
      · split at h
        · split at h
          · cases h
          · cases h; rfl
        · cases h; exact hk
      · split at h
        · cases h; rfl
        · cases h; exact hk
      · cases h; exact hk

theorem normalize_not {c c' : Plan Row} (h : normalize env c = .ok c') {k : Kind Row} (hk : k.isJoin = false)
    (hc : c.kind ≠ k) : c'.kind ≠ k := by
  rcases normalize_kind h with ⟨_, h2⟩ | h2
  · intro e; rw [e, hk] at h2; cases h2
  · rw [h2]; exact hc

theorem normalize_same {c c' : Plan Row} (h : normalize env c = .ok c') {k : Kind Row} (hk : k.isJoin = false)
    (hc : c.kind = k) : c'.kind = k := by
  rcases normalize_kind h with ⟨h1, _⟩ | h2
  · rw [hc, hk] at h1; cases h1
  · rw [h2]; exact hc

/-- What `stripCoalesce` takes off can be done without. -/
theorem Src.stripCoalesce {ph : Phase} {p : Plan Row} {J : SInfo Row} (h : Src env ph p J) :
    ∃ one ga, Src env ph (stripCoalesce p) ⟨none, one, J.rep, J.eqv, ga⟩ := by
  induction h with
  | @gather tc k c d one rep E ga ga' hk ho hg hr hc _ =>
    rcases hk with rfl | ⟨le, rfl⟩
    · exact ⟨one, ga, hc.forget (.inr rfl) id id⟩
    · exact ⟨true, ga', .gather (.inr ⟨le, rfl⟩) ho hg hr hc⟩
  | forget _ _ _ _ ih => exact ih
  | coarsen hE _ ih =>
    obtain ⟨one, ga, h⟩ := ih
    exact ⟨one, ga, h.coarsen hE⟩
  | leaf a b c => exact ⟨_, _, (Src.leaf a b c)⟩
  | opLocal a b c d => exact ⟨_, _, (Src.opLocal a b c d).forget (.inr rfl) id id⟩
  | opKeyed a b c d e f g h i => exact ⟨_, _, (Src.opKeyed a b c d e f g h i).forget (.inr rfl) id id⟩
  | opSingle a b c d e f g => exact ⟨_, _, (Src.opSingle a b c d e f g)⟩
  | joinSafe a b c d e f g h i j => exact ⟨_, _, (Src.joinSafe a b c d e f g h i j).forget (.inr rfl) id id⟩
  | joinPinned a b c d e f g h i => exact ⟨_, _, (Src.joinPinned a b c d e f g h i)⟩
  | joinCollect a b c d e f => exact ⟨_, _, (Src.joinCollect a b c d e f)⟩
  | joinNested a b c d e f g h => exact ⟨_, _, (Src.joinNested a b c d e f g h)⟩
  | joinPart a b c d e f => exact ⟨_, _, (Src.joinPart a b c d e f).forget (.inr rfl) id id⟩
  | union a b c => exact ⟨_, _, (Src.union a b c)⟩
  | ciu a b c d => exact ⟨_, _, (Src.ciu a b c d)⟩
  | hashRepart a b c => exact ⟨_, _, (Src.hashRepart a b c).forget (.inr rfl) id id⟩
  | otherRepart a b c d => exact ⟨_, _, (Src.otherRepart a b c d)⟩
  | broadcast a b => exact ⟨_, _, (Src.broadcast a b)⟩
  | fetch hk a b c d e =>
    refine ⟨true, true, ?_⟩
    rcases hk with rfl | ⟨le, rfl⟩
    · exact Src.fetch (.inl rfl) a b c d e
    · exact Src.fetch (.inr ⟨le, rfl⟩) a b c d e

theorem answer_stripCoalesce (p : Plan Row) : Answer (stripCoalesce p) = Answer p := by
  unfold stripCoalesce
  split
  · exact (answer_pass (fun _ _ => Iff.rfl) _ _ _).symm
  · rfl

theorem Src.set_none {ph : Phase} {p : Plan Row} {d one rep E ga} (h : Src env ph p ⟨d, one, rep, E, ga⟩) :
    Src env ph p ⟨none, one, rep, E, ga⟩ := h.forget (.inr rfl) id id

theorem swap_safe {s : JoinSpec Row} (hs : s.jt.broadcastSafe = false) (hf : s.jt ≠ .full) (hn : s.nullAware = none) :
    s.swap.safe = true := by
  have h1 : s.swap.jt = s.jt.swap := rfl
  have h2 : s.swap.nullAware = none := by simp [JoinSpec.swap, hn]
  simp only [JoinSpec.safe, h1, h2]
  cases hj : s.jt <;> simp [hj, JoinType.broadcastSafe, JoinType.swap] at hs hf ⊢

theorem normalize_src (he : EnvOk env) {ph : Phase} {p : Plan Row} {J : SInfo Row} (h : Src env ph p J) :
    ph = .pre → ∀ p', normalize env p = .ok p' → Src env .mid p' J ∧ J.eqv.sub (Answer p') (Answer p) := by
  induction h with
  | leaf a b c =>
    intro hph p' hp
    obtain ⟨cs', h1, h2, h3⟩ := normalize_inv hp
    obtain rfl := List.length_eq_zero_iff.mp (by simpa using h1)
    rw [normalizeNode_other rfl] at h3; cases h3
    exact ⟨.leaf a b c, RowEq.sub_refl _ _⟩
  | @opLocal tc g red c d d' one ga E E' hg hr hd _ ih =>
    intro hph p' hp
    obtain ⟨cs', h1, h2, h3⟩ := normalize_inv hp
    obtain ⟨c', rfl⟩ := one_of_length (by simpa using h1)
    rw [normalizeNode_other rfl] at h3; cases h3
    obtain ⟨c0, e1, e2⟩ := h2 0 c' rfl
    simp at e1; subst e1
    obtain ⟨i1, i2⟩ := ih hph c' e2
    exact ⟨.opLocal hg hr hd i1, answer_sub1 hg.congr i2⟩
  | @opKeyed tc g red cs P d' ga hs Es gs E' hk hr hd hne hl hl' hl'' hga _ ih =>
    intro hph p' hp
    obtain ⟨cs', h1, h2, h3⟩ := normalize_inv hp
    rw [normalizeNode_other rfl] at h3; cases h3
    have hf : ∀ (i : Nat) c' h E b, cs'[i]? = some c' → hs[i]? = some h → Es[i]? = some E → gs[i]? = some b →
        Src env .mid c' ⟨some (h, P), false, false, E, b⟩ ∧ ∀ c, cs[i]? = some c → E.sub (Answer c') (Answer c) := by
      intro i c' h E b x1 x2 x3 x4
      obtain ⟨c, e1, e2⟩ := h2 i c' x1
      obtain ⟨i1, i2⟩ := ih i c h E b e1 x2 x3 x4 hph c' e2
      exact ⟨i1, fun c2 hc2 => by rw [e1] at hc2; cases hc2; exact i2⟩
    refine ⟨.opKeyed hk hr hd ?_ (by omega) (by omega) (by omega) hga
      fun i c h E b x1 x2 x3 x4 => (hf i c h E b x1 x2 x3 x4).1, ?_⟩
    · intro h; subst h; simp at h1; exact hne (List.length_eq_zero_iff.mp h1.symm)
    · refine answer_sub hk.congr h1 hl' ?_
      intro i c' c E x1 x2 x3
      have hi := (List.getElem?_eq_some_iff.mp x1).1
      exact (hf i c' (hs[i]'(by omega)) E (gs[i]'(by omega)) x1 (by simp) x3 (by simp)).2 c x2
  | @opSingle tc g red cs Es gs E' hw hr hne hl hl' hga _ ih =>
    intro hph p' hp
    obtain ⟨cs', h1, h2, h3⟩ := normalize_inv hp
    rw [normalizeNode_other rfl] at h3; cases h3
    have hf : ∀ (i : Nat) c' E b, cs'[i]? = some c' → Es[i]? = some E → gs[i]? = some b →
        Src env .mid c' ⟨none, true, false, E, b⟩ ∧ ∀ c, cs[i]? = some c → E.sub (Answer c') (Answer c) := by
      intro i c' E b x1 x3 x4
      obtain ⟨c, e1, e2⟩ := h2 i c' x1
      obtain ⟨i1, i2⟩ := ih i c E b e1 x3 x4 hph c' e2
      exact ⟨i1, fun c2 hc2 => by rw [e1] at hc2; cases hc2; exact i2⟩
    refine ⟨.opSingle hw hr ?_ (by omega) (by omega) hga fun i c E b x1 x3 x4 => (hf i c E b x1 x3 x4).1, ?_⟩
    · intro h; subst h; simp at h1; exact hne (List.length_eq_zero_iff.mp h1.symm)
    · refine answer_sub hw h1 hl ?_
      intro i c' c E x1 x2 x3
      have hi := (List.getElem?_eq_some_iff.mp x1).1
      exact (hf i c' E (gs[i]'(by omega)) x1 x3 (by simp)).2 c x2
  | @joinSafe tc m s b p d d' one oneB repB ga gaB hm hs hb hd hf h1 h2 h3 _ _ ihb ihp =>
    intro hph q hq
    obtain ⟨cs', l1, l2, l3⟩ := normalize_inv hq
    obtain ⟨b', p', rfl⟩ := two_of_length (by simpa using l1)
    obtain ⟨b0, e1, e2⟩ := l2 0 b' rfl
    obtain ⟨p0, e3, e4⟩ := l2 1 p' rfl
    simp at e1 e3; subst e1; subst e3
    obtain ⟨i1, i2⟩ := ihb hph b' e2
    obtain ⟨j1, j2⟩ := ihp hph p' e4
    have hsafe : s.jt.broadcastSafe = true := by
      simp only [JoinSpec.safe, Bool.and_eq_true] at hs; exact hs.1
    have hnode : q = .node (.join m s) tc [b', p'] := by
      cases m with
      | partitioned => exact absurd rfl hm
      | collect => simp [normalizeNode, hsafe] at l3; exact l3.symm
      | nested => simp [normalizeNode, hsafe] at l3; exact l3.symm
      | cross => exact (Except.ok.inj l3).symm
    subst hnode
    exact ⟨.joinSafe hm hs hb hd (fun _ g => normalize_not e2 rfl (hf (by rw [hph]; simp) g)) (by simp) (by simp)
      (fun _ => h3 (by rw [hph]; simp)) i1 j1, answer_sub_join (safe_unordered hs) i2 j2⟩
  | @joinPinned tc m s b p one repB ga gaB hm hpin hu hc1 hc2 hr hf sb sp ihb ihp =>
    intro hph q hq
    obtain ⟨cs', l1, l2, l3⟩ := normalize_inv hq
    obtain ⟨b', p', rfl⟩ := two_of_length (by simpa using l1)
    obtain ⟨b0, e1, e2⟩ := l2 0 b' rfl
    obtain ⟨p0, e3, e4⟩ := l2 1 p' rfl
    simp at e1 e3; subst e1; subst e3
    obtain ⟨i1, i2⟩ := ihb hph b' e2
    obtain ⟨j1, j2⟩ := ihp hph p' e4
    subst hph
    have hb1 : b.parts = 1 := sb.parts_one rfl
    have hnode : q = .node (.join m s) tc [b', p'] := by
      cases m with
      | partitioned => exact absurd rfl hm
      | collect =>
        simp only [normalizeNode, List.map_cons, List.map_nil, List.getD_cons_zero, List.getD_cons_succ] at l3
        split at l3
        · rename_i hcond
          exfalso
          simp only [Bool.and_eq_true, Bool.not_eq_true', Option.isNone_iff_eq_none] at hcond
          have hp1 : p.parts = 1 := sp.parts_one (hc1 rfl rfl hcond.1.1 hcond.1.2)
          simp [hb1, hp1] at hcond
        · exact (Except.ok.inj l3).symm
      | nested =>
        simp only [normalizeNode, List.map_cons, List.map_nil, List.getD_cons_zero, List.getD_cons_succ] at l3
        split at l3
        · rename_i hcond
          exfalso
          simp only [Bool.and_eq_true, Bool.not_eq_true', bne_iff_ne] at hcond
          have hp1 : p.parts = 1 := sp.parts_one (hc2 rfl rfl hcond.1.1.1 hcond.1.1.2 hcond.1.2)
          simp [hb1, hp1] at hcond
        · exact (Except.ok.inj l3).symm
      | cross => exact (Except.ok.inj l3).symm
    subst hnode
    exact ⟨.joinPinned hm hpin hu (by simp) (by simp) (fun _ => hr (by simp))
      (fun _ hc g => normalize_not e2 rfl (hf (by simp) hc g)) i1 j1, answer_sub_join hu i2 j2⟩
  | @joinCollect tc s b p one ga gaB hpre hunsafe hnull heq sb sp ihb ihp =>
    intro hph q hq
    obtain ⟨cs', l1, l2, l3⟩ := normalize_inv hq
    obtain ⟨b', p', rfl⟩ := two_of_length (by simpa using l1)
    obtain ⟨b0, e1, e2⟩ := l2 0 b' rfl
    obtain ⟨p0, e3, e4⟩ := l2 1 p' rfl
    simp at e1 e3; subst e1; subst e3
    obtain ⟨i1, i2⟩ := ihb hph b' e2
    obtain ⟨j1, j2⟩ := ihp hph p' e4
    have hu := unordered_of_none hnull
    simp only [normalizeNode, List.map_cons, List.map_nil, List.getD_cons_zero, List.getD_cons_succ] at l3
    split at l3
    · split at l3
      · cases l3
      · cases l3
        obtain ⟨one1, ga1, st⟩ := i1.stripCoalesce
        refine ⟨?_, ?_⟩
        · exact .joinPart (ga := false) (d' := none) heq hnull (by simp) (by simp)
            (.hashRepart he.target (by simp) st) (.hashRepart he.target (by simp) j1)
        · refine answer_sub_join hu ?_ ?_
          · rw [fresh, answer_pass (fun _ _ => Iff.rfl), answer_stripCoalesce]; exact i2
          · rw [fresh, answer_pass (fun _ _ => Iff.rfl)]; exact j2
    · cases l3
      have hpin : pinned env (.join .collect s) = true := by simp [pinned, hunsafe]
      exact ⟨(Src.joinPinned (repB := false) (by simp) hpin hu (by simp) (by simp) (by simp)
        (by intro _ hc; rw [canBroadcast, hunsafe] at hc; cases hc) i1 j1).forget
        (.inl rfl) (by simp) (by simp), answer_sub_join hu i2 j2⟩
  | @joinNested tc s b p one ga gaB hpre hbj hunsafe hfull hnull hf sb sp ihb ihp =>
    intro hph q hq
    obtain ⟨cs', l1, l2, l3⟩ := normalize_inv hq
    obtain ⟨b', p', rfl⟩ := two_of_length (by simpa using l1)
    obtain ⟨b0, e1, e2⟩ := l2 0 b' rfl
    obtain ⟨p0, e3, e4⟩ := l2 1 p' rfl
    simp at e1 e3; subst e1; subst e3
    obtain ⟨i1, i2⟩ := ihb hph b' e2
    obtain ⟨j1, j2⟩ := ihp hph p' e4
    have hu := unordered_of_none hnull
    simp only [normalizeNode, List.map_cons, List.map_nil, List.getD_cons_zero, List.getD_cons_succ] at l3
    split at l3
    · cases l3
      obtain ⟨one1, ga1, st⟩ := i1.stripCoalesce
      have hsafe := swap_safe hunsafe hfull hnull
      refine ⟨(Src.joinSafe (d' := none) (repB := false) (by simp) hsafe hbj (by simp)
        (fun _ g => normalize_not e4 rfl (hf g)) (by simp) (by simp) (by simp) j1 st).forget
        (.inl rfl) (by simp) (by simp), ?_⟩
      intro x hx
      obtain ⟨y, z, hy, hz, rfl⟩ := answer_two.mp hx
      rw [answer_stripCoalesce] at hz
      obtain ⟨z', hz', ez⟩ := i2 z hz
      obtain ⟨y', hy', ey⟩ := j2 y hy
      exact ⟨joinRows s z' y', answer_two.mpr ⟨z', y', hz', hy', rfl⟩,
        (joinRows_swap s z y).trans (joinRows_perm s hu ez ey)⟩
    · cases l3
      have hpin : pinned env (.join .nested s) = true := by simp [pinned, hunsafe]
      exact ⟨(Src.joinPinned (repB := false) (by simp) hpin hu (by simp) (by simp) (by simp)
        (by intro _ hc; rw [canBroadcast, hunsafe] at hc; cases hc) i1 j1).forget
        (.inl rfl) (by simp) (by simp), answer_sub_join hu i2 j2⟩
  | @joinPart tc s l r P d' ga gaL gaR heq hnull hd hga _ _ ihl ihr =>
    intro hph q hq
    obtain ⟨cs', l1, l2, l3⟩ := normalize_inv hq
    obtain ⟨b', p', rfl⟩ := two_of_length (by simpa using l1)
    obtain ⟨b0, e1, e2⟩ := l2 0 b' rfl
    obtain ⟨p0, e3, e4⟩ := l2 1 p' rfl
    simp at e1 e3; subst e1; subst e3
    obtain ⟨i1, i2⟩ := ihl hph b' e2
    obtain ⟨j1, j2⟩ := ihr hph p' e4
    have hnode := (Except.ok.inj l3).symm
    subst hnode
    exact ⟨.joinPart heq hnull hd hga i1 j1, answer_sub_join (unordered_of_none hnull) i2 j2⟩
  | @union tc cs E gs hne hl _ ih =>
    intro hph q hq
    obtain ⟨cs', h1, h2, h3⟩ := normalize_inv hq
    rw [normalizeNode_other rfl] at h3; cases h3
    have hf : ∀ (i : Nat) c' b, cs'[i]? = some c' → gs[i]? = some b →
        Src env .mid c' ⟨none, false, false, E, b⟩ ∧ ∀ c, cs[i]? = some c → E.sub (Answer c') (Answer c) := by
      intro i c' b x1 x4
      obtain ⟨c, e1, e2⟩ := h2 i c' x1
      obtain ⟨i1, i2⟩ := ih i c b e1 x4 hph c' e2
      exact ⟨i1, fun c2 hc2 => by rw [e1] at hc2; cases hc2; exact i2⟩
    refine ⟨.union ?_ (by omega) fun i c b x1 x4 => (hf i c b x1 x4).1, ?_⟩
    · intro h; subst h; simp at h1; exact hne (List.length_eq_zero_iff.mp h1.symm)
    · refine answer_sub_union (.inl rfl) (.inl rfl) h1 fun i c' c x1 x2 => ?_
      have hi := (List.getElem?_eq_some_iff.mp x1).1
      exact (hf i c' (gs[i]'(by omega)) x1 (by simp)).2 c x2
  | ciu h => intro hph; rw [hph] at h; cases h
  | @hashRepart tc h n o c one one' E ga hn h1 _ ih =>
    intro hph q hq
    obtain ⟨cs', l1, h2, h3⟩ := normalize_inv hq
    obtain ⟨c', rfl⟩ := one_of_length (by simpa using l1)
    rw [normalizeNode_other rfl] at h3; cases h3
    obtain ⟨c0, e1, e2⟩ := h2 0 c' rfl
    simp at e1; subst e1
    obtain ⟨i1, i2⟩ := ih hph c' e2
    exact ⟨.hashRepart hn h1 i1, answer_sub_pass (fun _ _ => Iff.rfl) (fun _ _ => Iff.rfl) i2⟩
  | @otherRepart tc n deal c one one' E ga hn h1 hdeal _ ih =>
    intro hph q hq
    obtain ⟨cs', l1, h2, h3⟩ := normalize_inv hq
    obtain ⟨c', rfl⟩ := one_of_length (by simpa using l1)
    rw [normalizeNode_other rfl] at h3; cases h3
    obtain ⟨c0, e1, e2⟩ := h2 0 c' rfl
    simp at e1; subst e1
    obtain ⟨i1, i2⟩ := ih hph c' e2
    exact ⟨.otherRepart hn h1 hdeal i1, answer_sub_pass (fun _ _ => Iff.rfl) (fun _ _ => Iff.rfl) i2⟩
  | @gather tc k c d one rep E ga ga' hk ho hg hr hc ih =>
    intro hph q hq
    obtain ⟨cs', l1, h2, h3⟩ := normalize_inv hq
    obtain ⟨c', rfl⟩ := one_of_length (by simpa using l1)
    have hkj : k.isJoin = false := by rcases hk with rfl | ⟨le, rfl⟩ <;> rfl
    rw [normalizeNode_other hkj] at h3; cases h3
    obtain ⟨c0, e1, e2⟩ := h2 0 c' rfl
    simp at e1; subst e1
    obtain ⟨i1, i2⟩ := ih hph c' e2
    refine ⟨.gather hk ?_ ?_ ?_ i1, ?_⟩
    · intro n deal; exact normalize_not e2 rfl (ho n deal)
    · intro hg'
      exact ⟨fun h n o => normalize_not e2 rfl ((hg hg').1 h n o), fun n => normalize_not e2 rfl ((hg hg').2 n)⟩
    · intro hr'
      obtain ⟨n, hn⟩ := hr hr'
      exact ⟨n, normalize_same e2 rfl hn⟩
    · rcases hk with rfl | ⟨le, rfl⟩ <;> exact answer_sub_pass (fun _ _ => Iff.rfl) (fun _ _ => Iff.rfl) i2
  | @fetch tc k g c d one E E' ga hk hw ho hh hb hc ih =>
    intro hph q hq
    obtain ⟨cs', l1, h2, h3⟩ := normalize_inv hq
    obtain ⟨c', rfl⟩ := one_of_length (by simpa using l1)
    have hkj : k.isJoin = false := by rcases hk with rfl | ⟨le, rfl⟩ <;> rfl
    rw [normalizeNode_other hkj] at h3; cases h3
    obtain ⟨c0, e1, e2⟩ := h2 0 c' rfl
    simp at e1; subst e1
    obtain ⟨i1, i2⟩ := ih hph c' e2
    refine ⟨.fetch hk hw (fun n deal => normalize_not e2 rfl (ho n deal)) (fun h n o => normalize_not e2 rfl (hh h n o))
      (fun n => normalize_not e2 rfl (hb n)) i1, answer_sub1 ?_ i2⟩
    intro a b x e hx
    rcases hk with rfl | ⟨le, rfl⟩ <;> exact hw [a] [b] x ⟨e, trivial⟩ hx
  | broadcast h => intro hph; rw [hph] at h; cases h
  | forget _ h1 h2 h3 ih =>
    intro hph q hq
    obtain ⟨i1, i2⟩ := ih hph q hq
    exact ⟨i1.forget h1 h2 h3, i2⟩
  | coarsen hE _ ih =>
    intro hph q hq
    obtain ⟨i1, i2⟩ := ih hph q hq
    exact ⟨i1.coarsen hE, RowEq.sub_mono hE i2⟩

/-! ### `insert_broadcast_execs` -/

theorem insertBroadcastAll_eq (cs : List (Plan Row)) : insertBroadcastAll cs = cs.map insertBroadcast := by
  induction cs with
  | nil => rfl
  | cons c cs ih => rw [insertBroadcastAll, ih]; rfl

theorem insertBroadcast_kind (p : Plan Row) : (insertBroadcast p).kind = p.kind := by
  cases p with
  | node k tc cs =>
    rw [insertBroadcast]
    split <;> rfl

theorem insertBroadcast_plain {k : Kind Row} (hk : canBroadcast k = false) (tc : TaskCount) (cs : List (Plan Row)) :
    insertBroadcast (.node k tc cs) = .node k tc (cs.map insertBroadcast) := by
  rw [insertBroadcast, insertBroadcastAll_eq]
  cases cs with
  | nil => rfl
  | cons c cs => simp [hk]

theorem insertBroadcast_join (k : Kind Row) (tc : TaskCount) (b p : Plan Row) :
    insertBroadcast (.node k tc [b, p])
      = .node k tc [if canBroadcast k then broadcastBuild (insertBroadcast b) else insertBroadcast b, insertBroadcast p] := by
  rw [insertBroadcast, insertBroadcastAll_eq]
  simp only [List.map_cons, List.map_nil]
  split <;> rfl

theorem answer_broadcastBuild (p : Plan Row) : Answer (broadcastBuild p) = Answer p := by
  unfold broadcastBuild
  split
  · exact answer_unary (answer_pass (fun _ _ => Iff.rfl) _ _ _)
  · exact (answer_pass (fun _ _ => Iff.rfl) _ _ _).trans (answer_pass (fun _ _ => Iff.rfl) _ _ _)

/-- Any build side covered before the pass is covered after it, now with a full copy for every task. -/
theorem Src.broadcastBuild {p : Plan Row} {J : SInfo Row} (h : Src env .post p J) (hr : J.rep = false)
    (hf : ∀ g, p.kind ≠ .coalesce (some g)) :
    Src env .post (broadcastBuild p) ⟨none, true, true, J.eqv, false⟩ := by
  have wrapped : ∀ {x : Plan Row} {d one E ga}, Src env .post x ⟨d, one, false, E, ga⟩ →
      Src env .post (fresh (.coalesce none) [fresh (.broadcast 1) [x]]) ⟨none, true, true, E, false⟩ := by
    intro x d one E ga hx
    exact .gather (.inl rfl) (by rintro n deal ⟨⟩) (by simp) (fun _ => ⟨1, rfl⟩) (.broadcast rfl hx.set_none)
  have plain : ∀ {x : Plan Row} {d one E ga}, Src env .post x ⟨d, one, false, E, ga⟩ →
      (∀ f, x.kind ≠ .coalesce f) → Src env .post (Tree.broadcastBuild x) ⟨none, true, true, E, false⟩ := by
    intro x d one E ga hx hk
    have : Tree.broadcastBuild x = fresh (.coalesce none) [fresh (.broadcast 1) [x]] := by
      unfold Tree.broadcastBuild
      split
      · exact absurd rfl (hk _)
      · rfl
    rw [this]
    exact wrapped hx
  generalize hph : Phase.post = ph at h
  subst hph
  induction h with
  | @gather tc k c d one rep E ga ga' hk ho hg hrr hc _ =>
    subst hr
    rcases hk with rfl | ⟨le, rfl⟩
    · exact wrapped hc
    · exact plain (.gather (ga' := ga') (.inr ⟨le, rfl⟩) ho hg hrr hc) (by simp [Plan.kind])
  | forget _ _ _ _ ih => exact ih hr hf
  | coarsen hE _ ih => exact (ih hr hf).coarsen hE
  | fetch hk a b c d e =>
    rcases hk with rfl | ⟨le, rfl⟩
    · exact absurd rfl (hf _)
    · exact plain (.fetch (.inr ⟨le, rfl⟩) a b c d e) (by simp [Plan.kind])
  | leaf a b c => exact plain (.leaf a b c) (by simp [Plan.kind])
  | opLocal a b c d => exact plain (.opLocal a b c d) (by simp [Plan.kind])
  | opKeyed a b c d e f g h i => exact plain (.opKeyed a b c d e f g h i) (by simp [Plan.kind])
  | opSingle a b c d e f g => exact plain (.opSingle a b c d e f g) (by simp [Plan.kind])
  | joinSafe a b c d e f g h i j => exact plain (.joinSafe a b c d e f g h i j) (by simp [Plan.kind])
  | joinPinned a b c d e f g h i => exact plain (.joinPinned a b c d e f g h i) (by simp [Plan.kind])
  | joinCollect a => cases a
  | joinNested a => cases a
  | joinPart a b c d e f => exact plain (.joinPart a b c d e f) (by simp [Plan.kind])
  | union a b c => exact plain (.union a b c) (by simp [Plan.kind])
  | ciu a b c d => exact plain (.ciu a b c d) (by simp [Plan.kind])
  | hashRepart a b c => exact plain (.hashRepart a b c) (by simp [Plan.kind])
  | otherRepart a b c d => exact plain (.otherRepart a b c d) (by simp [Plan.kind])
  | broadcast => cases hr

theorem map_getElem? {α β} {f : α → β} {l : List α} {i : Nat} {b : β} (h : (l.map f)[i]? = some b) :
    ∃ a, l[i]? = some a ∧ f a = b := by
  simpa only [List.getElem?_map, Option.map_eq_some_iff] using h

theorem insertBroadcast_src {ph : Phase} {p : Plan Row} {J : SInfo Row} (h : Src env ph p J) (hph : ph = .mid) :
    Src env .post (insertBroadcast p) J ∧ Answer (insertBroadcast p) = Answer p := by
  induction h with
  | leaf a b c =>
    rw [insertBroadcast_plain rfl]
    exact ⟨.leaf a b c, rfl⟩
  | opLocal hg hr hd _ ih =>
    rw [insertBroadcast_plain rfl]
    exact ⟨.opLocal hg hr hd ih.1, answer_unary ih.2⟩
  | @opKeyed tc g red cs P d' ga hs Es gs E' hk hr hd hne hl hl' hl'' hga _ ih =>
    rw [insertBroadcast_plain rfl]
    refine ⟨.opKeyed hk hr hd (by simpa using hne) (by simpa using hl) (by simpa using hl') (by simpa using hl'') hga ?_, ?_⟩
    · intro i c h E b x1 x2 x3 x4
      obtain ⟨c0, y1, rfl⟩ := map_getElem? x1
      exact (ih i c0 h E b y1 x2 x3 x4).1
    · refine answer_congr (by simp) ?_
      intro i c' x1 c x2
      obtain ⟨c0, y1, rfl⟩ := map_getElem? x1
      rw [x2] at y1; cases y1
      have hi := (List.getElem?_eq_some_iff.mp x2).1
      exact (ih i c (hs[i]'(by omega)) (Es[i]'(by omega)) (gs[i]'(by omega)) x2 (by simp) (by simp) (by simp)).2
  | @opSingle tc g red cs Es gs E' hw hr hne hl hl' hga _ ih =>
    rw [insertBroadcast_plain rfl]
    refine ⟨.opSingle hw hr (by simpa using hne) (by simpa using hl) (by simpa using hl') hga ?_, ?_⟩
    · intro i c E b x1 x3 x4
      obtain ⟨c0, y1, rfl⟩ := map_getElem? x1
      exact (ih i c0 E b y1 x3 x4).1
    · refine answer_congr (by simp) ?_
      intro i c' x1 c x2
      obtain ⟨c0, y1, rfl⟩ := map_getElem? x1
      rw [x2] at y1; cases y1
      have hi := (List.getElem?_eq_some_iff.mp x2).1
      exact (ih i c (Es[i]'(by omega)) (gs[i]'(by omega)) x2 (by simp) (by simp)).2
  | @joinSafe tc m s b p d d' one oneB repB ga gaB hm hs hb hd hf h1 h2 h3 _ _ ihb ihp =>
    rw [insertBroadcast_join]
    have hsafe : s.jt.broadcastSafe = true := by
      simp only [JoinSpec.safe, Bool.and_eq_true] at hs; exact hs.1
    have hcan : canBroadcast (Row := Row) (.join m s) = true := by
      cases m with
      | partitioned => exact absurd rfl hm
      | collect => exact hsafe
      | nested => exact hsafe
      | cross => rfl
    rw [if_pos hcan]
    have hrep : repB = false := h3 (by rw [hph]; simp)
    have hnf : ∀ g, (insertBroadcast b).kind ≠ .coalesce (some g) := by
      simpa only [insertBroadcast_kind] using hf (by rw [hph]; simp)
    exact ⟨.joinSafe (oneB := true) (repB := true) hm hs hb hd (by simp) (by simp) (by simp) (by simp)
      (ihb.1.broadcastBuild hrep hnf) ihp.1, answer_binary ((answer_broadcastBuild _).trans ihb.2) ihp.2⟩
  | @joinPinned tc m s b p one repB ga gaB hm hpin hu hc1 hc2 hr hf sb sp ihb ihp =>
    rw [insertBroadcast_join]
    have hrep : repB = false := hr (by rw [hph]; simp)
    refine ⟨?_, ?_⟩
    · split
      · rename_i hc
        have hnf : ∀ g, (insertBroadcast b).kind ≠ .coalesce (some g) := by
          simpa only [insertBroadcast_kind] using hf (by rw [hph]; simp) hc
        exact .joinPinned hm hpin hu (by simp) (by simp) (by simp) (by simp) (ihb.1.broadcastBuild hrep hnf) ihp.1
      · exact .joinPinned hm hpin hu (by simp) (by simp) (by simp) (by simp) ihb.1 ihp.1
    · refine answer_binary ?_ ihp.2
      split
      · exact (answer_broadcastBuild _).trans ihb.2
      · exact ihb.2
  | joinCollect a => rw [hph] at a; cases a
  | joinNested a => rw [hph] at a; cases a
  | @joinPart tc s l r P d' ga gaL gaR heq hnull hd hga _ _ ihl ihr =>
    rw [insertBroadcast_plain rfl]
    exact ⟨.joinPart heq hnull hd hga ihl.1 ihr.1, answer_binary ihl.2 ihr.2⟩
  | @union tc cs E gs hne hl _ ih =>
    rw [insertBroadcast_plain rfl]
    refine ⟨.union (by simpa using hne) (by simpa using hl) ?_, ?_⟩
    · intro i c b x1 x4
      obtain ⟨c0, y1, rfl⟩ := map_getElem? x1
      exact (ih i c0 b y1 x4).1
    · refine answer_congr (by simp) ?_
      intro i c' x1 c x2
      obtain ⟨c0, y1, rfl⟩ := map_getElem? x1
      rw [x2] at y1; cases y1
      have hi := (List.getElem?_eq_some_iff.mp x2).1
      exact (ih i c (gs[i]'(by omega)) x2 (by simp)).2
  | ciu h => rw [hph] at h; cases h
  | hashRepart hn h1 _ ih =>
    rw [insertBroadcast_plain rfl]
    exact ⟨.hashRepart hn h1 ih.1, answer_unary ih.2⟩
  | otherRepart hn h1 hdeal _ ih =>
    rw [insertBroadcast_plain rfl]
    exact ⟨.otherRepart hn h1 hdeal ih.1, answer_unary ih.2⟩
  | @gather tc k c d one rep E ga ga' hk ho hg hr hc ih =>
    have hcan : canBroadcast k = false := by rcases hk with rfl | ⟨le, rfl⟩ <;> rfl
    rw [insertBroadcast_plain hcan]
    refine ⟨.gather hk ?_ ?_ ?_ ih.1, answer_unary ih.2⟩
    · simpa only [insertBroadcast_kind] using ho
    · simpa only [insertBroadcast_kind] using hg
    · simpa only [insertBroadcast_kind] using hr
  | @fetch tc k g c d one E E' ga hk hw ho hh hb hc ih =>
    have hcan : canBroadcast k = false := by rcases hk with rfl | ⟨le, rfl⟩ <;> rfl
    rw [insertBroadcast_plain hcan]
    refine ⟨.fetch hk hw ?_ ?_ ?_ ih.1, answer_unary ih.2⟩
    · simpa only [insertBroadcast_kind] using ho
    · simpa only [insertBroadcast_kind] using hh
    · simpa only [insertBroadcast_kind] using hb
  | broadcast h => rw [hph] at h; cases h
  | forget _ h1 h2 h3 ih => exact ⟨ih.1.forget h1 h2 h3, ih.2⟩
  | coarsen hE _ ih => exact ⟨ih.1.coarsen hE, ih.2⟩

/-- Without broadcast joins nothing is left to do. -/
theorem Src.ready {ph : Phase} {p : Plan Row} {J : SInfo Row} (h : Src env ph p J) (hph : ph = .mid)
    (hbj : env.broadcastJoins = false) : Src env .post p J := by
  induction h with
  | leaf a b c => exact .leaf a b c
  | opLocal hg hr hd _ ih => exact .opLocal hg hr hd ih
  | opKeyed hk hr hd hne hl hl' hl'' hga _ ih => exact .opKeyed hk hr hd hne hl hl' hl'' hga ih
  | opSingle hw hr hne hl hl' hga _ ih => exact .opSingle hw hr hne hl hl' hga ih
  | joinSafe _ _ hb => rw [hbj] at hb; cases hb
  | joinPinned hm hpin hu _ _ hr _ _ _ ihb ihp =>
    exact .joinPinned hm hpin hu (by simp) (by simp) (by simp) (by simp) ihb ihp
  | joinCollect a => rw [hph] at a; cases a
  | joinNested a => rw [hph] at a; cases a
  | joinPart heq hnull hd hga _ _ ihl ihr => exact .joinPart heq hnull hd hga ihl ihr
  | union hne hl _ ih => exact .union hne hl ih
  | ciu h => rw [hph] at h; cases h
  | hashRepart hn h1 _ ih => exact .hashRepart hn h1 ih
  | otherRepart hn h1 hdeal _ ih => exact .otherRepart hn h1 hdeal ih
  | gather hk ho hg hr _ ih => exact .gather hk ho hg hr ih
  | fetch hk hw ho hh hb _ ih => exact .fetch hk hw ho hh hb ih
  | broadcast h => rw [hph] at h; cases h
  | forget _ h1 h2 h3 ih => exact ih.forget h1 h2 h3
  | coarsen hE _ ih => exact ih.coarsen hE

/-! ### `insert_children_isolator_unions` -/

theorem isolateUnionsAll_inv : ∀ {cs cs' : List (Plan Row)}, isolateUnionsAll cs = .ok cs' →
    cs'.length = cs.length ∧ ∀ (i : Nat) c', cs'[i]? = some c' → ∃ c, cs[i]? = some c ∧ isolateUnions c = .ok c'
  | [], cs', h => by rw [isolateUnionsAll] at h; cases h; simp
  | c :: cs, cs', h => by
    rw [isolateUnionsAll] at h
    obtain ⟨c1, h1, h⟩ := bind_ok h
    obtain ⟨cs1, h2, h⟩ := bind_ok h
    cases h
    obtain ⟨i1, i2⟩ := isolateUnionsAll_inv h2
    refine ⟨by simp [i1], ?_⟩
    intro i x hx
    cases i with
    | zero => simp at hx; subst hx; exact ⟨c, rfl, h1⟩
    | succ i =>
      obtain ⟨y, e1, e2⟩ := i2 i x (by simpa using hx)
      exact ⟨y, by simpa using e1, e2⟩

theorem isolateUnions_inv {k : Kind Row} {tc cs p'} (h : isolateUnions (.node k tc cs) = .ok p') :
    ∃ cs', cs'.length = cs.length
      ∧ (∀ (i : Nat) c', cs'[i]? = some c' → ∃ c, cs[i]? = some c ∧ isolateUnions c = .ok c')
      ∧ ((k ≠ .union ∧ p' = .node k tc cs') ∨ (k = .union ∧ ∃ ws m, p' = .node (.ciu ws m) tc cs')) := by
  rw [isolateUnions] at h
  obtain ⟨cs', h1, h⟩ := bind_ok h
  obtain ⟨i1, i2⟩ := isolateUnionsAll_inv h1
  refine ⟨cs', i1, i2, ?_⟩
  cases k
  case union =>
    obtain ⟨n, _, h⟩ := bind_ok h
    cases h
    exact .inr ⟨rfl, _, _, rfl⟩
  all_goals (cases h; exact .inl ⟨by simp, rfl⟩)

theorem isolateUnions_kind {c c' : Plan Row} (h : isolateUnions c = .ok c') :
    (c.kind = .union ∧ ∃ ws m, c'.kind = .ciu ws m) ∨ c'.kind = c.kind := by
  cases c with
  | node k tc cs =>
    obtain ⟨cs', _, _, ⟨_, rfl⟩ | ⟨rfl, ws, m, rfl⟩⟩ := isolateUnions_inv h
    · exact .inr rfl
    · exact .inl ⟨rfl, ws, m, rfl⟩

theorem isolateUnions_src {ph : Phase} {p : Plan Row} {J : SInfo Row} (h : Src env ph p J) (hph : ph = .post) :
    ∀ p', isolateUnions p = .ok p' → Src env .post p' J ∧ Answer p' = Answer p := by
  induction h with
  | leaf a b c =>
    intro p' hp
    obtain ⟨cs', h1, h2, ⟨_, rfl⟩ | ⟨h, _⟩⟩ := isolateUnions_inv hp
    · obtain rfl := List.length_eq_zero_iff.mp (by simpa using h1)
      exact ⟨.leaf a b c, rfl⟩
    · cases h
  | opLocal hg hr hd _ ih =>
    intro p' hp
    obtain ⟨cs', h1, h2, ⟨_, rfl⟩ | ⟨h, _⟩⟩ := isolateUnions_inv hp
    · obtain ⟨c', rfl⟩ := one_of_length (by simpa using h1)
      obtain ⟨c0, e1, e2⟩ := h2 0 c' rfl
      simp at e1; subst e1
      obtain ⟨i1, i2⟩ := ih c' e2
      exact ⟨.opLocal hg hr hd i1, answer_unary i2⟩
    · cases h
  | @opKeyed tc g red cs P d' ga hs Es gs E' hk hr hd hne hl hl' hl'' hga _ ih =>
    intro p' hp
    obtain ⟨cs', h1, h2, ⟨_, rfl⟩ | ⟨h, _⟩⟩ := isolateUnions_inv hp
    · refine ⟨.opKeyed hk hr hd ?_ (by omega) (by omega) (by omega) hga ?_, ?_⟩
      · intro h; subst h; simp at h1; exact hne (List.length_eq_zero_iff.mp h1.symm)
      · intro i c h E b x1 x2 x3 x4
        obtain ⟨c0, y1, y2⟩ := h2 i c x1
        exact (ih i c0 h E b y1 x2 x3 x4 c y2).1
      · refine answer_congr h1 ?_
        intro i c' x1 c x2
        obtain ⟨c0, y1, y2⟩ := h2 i c' x1
        rw [x2] at y1; cases y1
        have hi := (List.getElem?_eq_some_iff.mp x2).1
        exact (ih i c (hs[i]'(by omega)) (Es[i]'(by omega)) (gs[i]'(by omega)) x2 (by simp) (by simp) (by simp) c' y2).2
    · cases h
  | @opSingle tc g red cs Es gs E' hw hr hne hl hl' hga _ ih =>
    intro p' hp
    obtain ⟨cs', h1, h2, ⟨_, rfl⟩ | ⟨h, _⟩⟩ := isolateUnions_inv hp
    · refine ⟨.opSingle hw hr ?_ (by omega) (by omega) hga ?_, ?_⟩
      · intro h; subst h; simp at h1; exact hne (List.length_eq_zero_iff.mp h1.symm)
      · intro i c E b x1 x3 x4
        obtain ⟨c0, y1, y2⟩ := h2 i c x1
        exact (ih i c0 E b y1 x3 x4 c y2).1
      · refine answer_congr h1 ?_
        intro i c' x1 c x2
        obtain ⟨c0, y1, y2⟩ := h2 i c' x1
        rw [x2] at y1; cases y1
        have hi := (List.getElem?_eq_some_iff.mp x2).1
        exact (ih i c (Es[i]'(by omega)) (gs[i]'(by omega)) x2 (by simp) (by simp) c' y2).2
    · cases h
  | @joinSafe tc m s b p d d' one oneB repB ga gaB hm hs hb hd hf h1 h2 h3 _ _ ihb ihp =>
    intro q hq
    obtain ⟨cs', l1, l2, ⟨_, rfl⟩ | ⟨h, _⟩⟩ := isolateUnions_inv hq
    · obtain ⟨b', p', rfl⟩ := two_of_length (by simpa using l1)
      obtain ⟨b0, e1, e2⟩ := l2 0 b' rfl
      obtain ⟨p0, e3, e4⟩ := l2 1 p' rfl
      simp at e1 e3; subst e1; subst e3
      obtain ⟨i1, i2⟩ := ihb b' e2
      obtain ⟨j1, j2⟩ := ihp p' e4
      subst hph
      exact ⟨.joinSafe hm hs hb hd (by simp) h1 h2 h3 i1 j1, answer_binary i2 j2⟩
    · cases h
  | @joinPinned tc m s b p one repB ga gaB hm hpin hu hc1 hc2 hr hf sb sp ihb ihp =>
    intro q hq
    obtain ⟨cs', l1, l2, ⟨_, rfl⟩ | ⟨h, _⟩⟩ := isolateUnions_inv hq
    · obtain ⟨b', p', rfl⟩ := two_of_length (by simpa using l1)
      obtain ⟨b0, e1, e2⟩ := l2 0 b' rfl
      obtain ⟨p0, e3, e4⟩ := l2 1 p' rfl
      simp at e1 e3; subst e1; subst e3
      obtain ⟨i1, i2⟩ := ihb b' e2
      obtain ⟨j1, j2⟩ := ihp p' e4
      subst hph
      exact ⟨.joinPinned hm hpin hu hc1 hc2 hr (by simp) i1 j1, answer_binary i2 j2⟩
    · cases h
  | joinCollect a => rw [hph] at a; cases a
  | joinNested a => rw [hph] at a; cases a
  | @joinPart tc s l r P d' ga gaL gaR heq hnull hd hga _ _ ihl ihr =>
    intro q hq
    obtain ⟨cs', l1, l2, ⟨_, rfl⟩ | ⟨h, _⟩⟩ := isolateUnions_inv hq
    · obtain ⟨b', p', rfl⟩ := two_of_length (by simpa using l1)
      obtain ⟨b0, e1, e2⟩ := l2 0 b' rfl
      obtain ⟨p0, e3, e4⟩ := l2 1 p' rfl
      simp at e1 e3; subst e1; subst e3
      obtain ⟨i1, i2⟩ := ihl b' e2
      obtain ⟨j1, j2⟩ := ihr p' e4
      exact ⟨.joinPart heq hnull hd hga i1 j1, answer_binary i2 j2⟩
    · cases h
  | @union tc cs E gs hne hl _ ih =>
    intro q hq
    obtain ⟨cs', h1, h2, ⟨h, _⟩ | ⟨_, ws, m, rfl⟩⟩ := isolateUnions_inv hq
    · exact absurd rfl h
    · refine ⟨.ciu rfl ?_ (h1.trans hl) ?_, ?_⟩
      · intro h; subst h; simp at h1; exact hne (List.length_eq_zero_iff.mp h1.symm)
      · intro i c b x1 x4
        obtain ⟨c0, y1, y2⟩ := h2 i c x1
        exact (ih i c0 b y1 x4 c y2).1
      · have : ∀ (i : Nat) c', cs'[i]? = some c' → ∀ c, cs[i]? = some c → Answer c' = Answer c := by
          intro i c' x1 c x2
          obtain ⟨c0, y1, y2⟩ := h2 i c' x1
          rw [x2] at y1; cases y1
          have hi := (List.getElem?_eq_some_iff.mp x2).1
          exact (ih i c (gs[i]'(by omega)) x2 (by simp) c' y2).2
        exact answer_congr (k := .union) (tc := tc) h1 this
  | @ciu tc ws m cs E gs _ hne hl _ ih =>
    intro p' hp
    obtain ⟨cs', h1, h2, ⟨_, rfl⟩ | ⟨h, _⟩⟩ := isolateUnions_inv hp
    · refine ⟨.ciu rfl ?_ (h1.trans hl) ?_, ?_⟩
      · intro h; subst h; simp at h1; exact hne (List.length_eq_zero_iff.mp h1.symm)
      · intro i c b x1 x4
        obtain ⟨c0, y1, y2⟩ := h2 i c x1
        exact (ih i c0 b y1 x4 c y2).1
      · refine answer_congr h1 ?_
        intro i c' x1 c x2
        obtain ⟨c0, y1, y2⟩ := h2 i c' x1
        rw [x2] at y1; cases y1
        have hi := (List.getElem?_eq_some_iff.mp x2).1
        exact (ih i c (gs[i]'(by omega)) x2 (by simp) c' y2).2
    · cases h
  | hashRepart hn h1 _ ih =>
    intro p' hp
    obtain ⟨cs', h1', h2, ⟨_, rfl⟩ | ⟨h, _⟩⟩ := isolateUnions_inv hp
    · obtain ⟨c', rfl⟩ := one_of_length (by simpa using h1')
      obtain ⟨c0, e1, e2⟩ := h2 0 c' rfl
      simp at e1; subst e1
      obtain ⟨i1, i2⟩ := ih c' e2
      exact ⟨.hashRepart hn h1 i1, answer_unary i2⟩
    · cases h
  | otherRepart hn h1 hdeal _ ih =>
    intro p' hp
    obtain ⟨cs', h1', h2, ⟨_, rfl⟩ | ⟨h, _⟩⟩ := isolateUnions_inv hp
    · obtain ⟨c', rfl⟩ := one_of_length (by simpa using h1')
      obtain ⟨c0, e1, e2⟩ := h2 0 c' rfl
      simp at e1; subst e1
      obtain ⟨i1, i2⟩ := ih c' e2
      exact ⟨.otherRepart hn h1 hdeal i1, answer_unary i2⟩
    · cases h
  | @gather tc k c d one rep E ga ga' hk ho hg hr hc ih =>
    intro p' hp
    obtain ⟨cs', h1', h2, ⟨_, rfl⟩ | ⟨h, _⟩⟩ := isolateUnions_inv hp
    · obtain ⟨c', rfl⟩ := one_of_length (by simpa using h1')
      obtain ⟨c0, e1, e2⟩ := h2 0 c' rfl
      simp at e1; subst e1
      obtain ⟨i1, i2⟩ := ih c' e2
      refine ⟨.gather hk ?_ ?_ ?_ i1, answer_unary i2⟩
      · intro n deal e
        rcases isolateUnions_kind e2 with ⟨_, ws, m, h'⟩ | h'
        · rw [h'] at e; cases e
        · exact ho n deal (h' ▸ e)
      · intro hgg
        rcases isolateUnions_kind e2 with ⟨_, ws, m, h'⟩ | h'
        · rw [h']; exact ⟨by simp, by simp⟩
        · rw [h']; exact hg hgg
      · intro hrr
        obtain ⟨n, hn⟩ := hr hrr
        rcases isolateUnions_kind e2 with ⟨h'', _⟩ | h'
        · rw [hn] at h''; cases h''
        · exact ⟨n, h'.trans hn⟩
    · rcases hk with rfl | ⟨le, rfl⟩ <;> cases h
  | @fetch tc k g c d one E E' ga hk hw ho hh hb hc ih =>
    intro p' hp
    obtain ⟨cs', h1', h2, ⟨_, rfl⟩ | ⟨h, _⟩⟩ := isolateUnions_inv hp
    · obtain ⟨c', rfl⟩ := one_of_length (by simpa using h1')
      obtain ⟨c0, e1, e2⟩ := h2 0 c' rfl
      simp at e1; subst e1
      obtain ⟨i1, i2⟩ := ih c' e2
      refine ⟨.fetch hk hw ?_ ?_ ?_ i1, answer_unary i2⟩
      all_goals rcases isolateUnions_kind e2 with ⟨_, ws, m, h'⟩ | h'
      · rw [h']; simp
      · rw [h']; exact ho
      · rw [h']; simp
      · rw [h']; exact hh
      · rw [h']; simp
      · rw [h']; exact hb
    · rcases hk with rfl | ⟨le, rfl⟩ <;> cases h
  | broadcast _ _ ih =>
    intro p' hp
    obtain ⟨cs', h1', h2, ⟨_, rfl⟩ | ⟨h, _⟩⟩ := isolateUnions_inv hp
    · obtain ⟨c', rfl⟩ := one_of_length (by simpa using h1')
      obtain ⟨c0, e1, e2⟩ := h2 0 c' rfl
      simp at e1; subst e1
      obtain ⟨i1, i2⟩ := ih c' e2
      exact ⟨.broadcast rfl i1, answer_unary i2⟩
    · cases h
  | forget _ h1 h2 h3 ih =>
    intro p' hp
    obtain ⟨i1, i2⟩ := ih p' hp
    exact ⟨i1.forget h1 h2 h3, i2⟩
  | coarsen hE _ ih =>
    intro p' hp
    obtain ⟨i1, i2⟩ := ih p' hp
    exact ⟨i1.coarsen hE, i2⟩

/-! ### All passes -/

theorem Src.not_fans {ph : Phase} {p : Plan Row} {J : SInfo Row} (h : Src env ph p J) (hg : J.gathered = true) :
    p.kind.fans = false := by
  induction h with
  | gather hk => rcases hk with rfl | ⟨le, rfl⟩ <;> rfl
  | fetch hk => rcases hk with rfl | ⟨le, rfl⟩ <;> rfl
  | forget _ _ _ h3 ih => exact ih (h3 hg)
  | coarsen _ _ ih => exact ih hg
  | hashRepart => cases hg
  | broadcast => cases hg
  | _ => rfl

/-- Placing boundaries in a plan whose root runs in one task. -/
theorem root_src (he : EnvOk env) {p q : Plan Row} {J : SInfo Row} (h : Src env .post p J) (hg : J.gathered = true)
    (hq : inject env .root p = .ok q) : Fits 1 q J (Answer p) := by
  have hi := inject_src he h _ _ hq
  unfold Injected at hi
  rw [if_neg (by simp [h.not_fans hg])] at hi
  obtain ⟨q0, o, h1, h2, h3, _⟩ := hi
  rw [wrap_root h1, h2.gathered hg] at h3
  exact h2.legal (.maximum 1) (by rw [h2.gathered hg]; exact ⟨Nat.le_refl _, Nat.le_refl _⟩) q h3

theorem getD_runAll (cs : List (Plan Row)) (i : Nat) (c : Plan Row) (h : cs[i]? = some c) :
    (((runAll cs).getD i (.none, .none)).1).parts = c.parts := by
  rw [runAll_eq, List.getD_eq_getElem?_getD, List.getElem?_map, h]
  rfl

/-- A plan said to have one partition has one. -/
theorem Src.one_parts {ph : Phase} {p : Plan Row} {J : SInfo Row} (h : Src env ph p J) (ho : J.one = true) :
    p.parts = 1 := by
  induction h with
  | leaf _ h => exact h ho
  | @opLocal tc g red c d d' one ga E E' _ _ _ _ ih =>
    exact (getD_runAll [c] 0 c rfl).trans (ih ho)
  | opKeyed => cases ho
  | @opSingle tc g red cs Es gs E' _ _ hne hl hl' _ _ ih =>
    cases cs with
    | nil => exact absurd rfl hne
    | cons c cs =>
      exact (getD_runAll (c :: cs) 0 c rfl).trans
        (ih 0 c (Es[0]'(by rw [← hl]; simp)) (gs[0]'(by rw [← hl']; simp)) rfl (by simp) (by simp) rfl)
  | @joinSafe tc m s b p d d' one oneB repB ga gaB hm _ _ _ _ _ _ _ _ _ _ ih =>
    cases m
    case partitioned => exact absurd rfl hm
    all_goals exact (getD_runAll [b, p] 1 p rfl).trans (ih ho)
  | @joinPinned tc m s b p one repB ga gaB hm _ _ _ _ _ _ _ _ _ ih =>
    cases m
    case partitioned => exact absurd rfl hm
    all_goals exact (getD_runAll [b, p] 1 p rfl).trans (ih ho)
  | joinCollect => cases ho
  | joinNested => cases ho
  | joinPart => cases ho
  | union => cases ho
  | ciu => cases ho
  | hashRepart _ h => exact h ho
  | otherRepart _ h => exact h ho
  | gather hk => rcases hk with rfl | ⟨le, rfl⟩ <;> rfl
  | fetch hk => rcases hk with rfl | ⟨le, rfl⟩ <;> rfl
  | @broadcast tc c one E ga _ _ ih =>
    have h1 := (getD_runAll [c] 0 c rfl).trans (ih ho)
    show (((runAll [c]).getD 0 (.none, .none)).1).parts * 1 = 1
    rw [h1]
  | forget _ _ h1 _ ih => exact ih (h1 ho)
  | coarsen _ _ ih => exact ih ho

/-- The plan with its boundaries placed is legal in one task and means the same. -/
theorem injected_src (he : EnvOk env) {p q r : Plan Row} {J : SInfo Row} (h : Src env .pre p J) (hrep : J.rep = false)
    (hroot : RootOk env p J) (hq : preparePlan env p = .ok q) (h4 : inject env .root q = .ok r) :
    ∃ d, Legal true 1 r ⟨1, d, false, J.eqv⟩ ∧ J.eqv.sub (Answer r) (Answer p) := by
  unfold preparePlan at hq
  obtain ⟨p1, h1, h2⟩ := bind_ok hq
  replace h2 : (if env.isolateUnions = true then isolateUnions (if env.broadcastJoins = true then
    insertBroadcast (if p1.parts > 1 then fresh (.coalesce none) [p1] else p1)
    else if p1.parts > 1 then fresh (.coalesce none) [p1] else p1) else .ok (if env.broadcastJoins = true then
    insertBroadcast (if p1.parts > 1 then fresh (.coalesce none) [p1] else p1)
    else if p1.parts > 1 then fresh (.coalesce none) [p1] else p1)) = .ok q := h2
  generalize h3 : (if env.broadcastJoins = true then
    insertBroadcast (if p1.parts > 1 then fresh (.coalesce none) [p1] else p1)
    else if p1.parts > 1 then fresh (.coalesce none) [p1] else p1) = p2 at h2
  obtain ⟨n1, n2⟩ := normalize_src he h rfl p1 h1
  have hx : ∃ x J', x = (if p1.parts > 1 then fresh (.coalesce none) [p1] else p1) ∧ Src env .mid x J'
      ∧ J'.eqv = J.eqv ∧ J'.rep = false ∧ J'.gathered = true ∧ J'.one = true ∧ Answer x = Answer p1 := by
    rcases hroot with ⟨hg, ho⟩ | hr
    · have h1 := n1.one_parts ho
      exact ⟨_, J, rfl, by rw [if_neg (by omega)]; exact n1, rfl, hrep, hg, ho, by rw [if_neg (by omega)]⟩
    · obtain ⟨hparts, hh⟩ := hr p1 h1
      refine ⟨_, ⟨none, true, J.rep, J.eqv, true⟩, rfl, ?_, rfl, hrep, rfl, rfl, ?_⟩
      · rw [if_pos hparts]
        refine .gather (.inl rfl) ?_ (fun _ => ⟨?_, ?_⟩) ?_ n1
        · intro n deal e; rw [e] at hh; cases hh
        · intro h n o e; rw [e] at hh; cases hh
        · intro n e; rw [e] at hh; cases hh
        · intro hr; rw [hrep] at hr; cases hr
      · rw [if_pos hparts]; exact answer_pass (fun _ _ => Iff.rfl) _ _ _
  obtain ⟨x, J', hx1, hx2, hx3, hx4, hx5, hx7, hx6⟩ := hx
  have hb : Src env .post p2 J' ∧ Answer p2 = Answer x := by
    rw [← h3, ← hx1]
    cases hbj : env.broadcastJoins with
    | true => exact insertBroadcast_src hx2 rfl
    | false => exact ⟨hx2.ready rfl hbj, rfl⟩
  have hi : Src env .post q J' ∧ Answer q = Answer p2 := by
    cases hiu : env.isolateUnions with
    | true => rw [hiu] at h2; exact isolateUnions_src hb.1 rfl q h2
    | false => rw [hiu] at h2; cases h2; exact ⟨hb.1, rfl⟩
  obtain ⟨P, l, _, ho, e⟩ := root_src he hi.1 hx5 h4
  rw [hx3, hx4, ho hx7] at l
  rw [hx3] at e
  refine ⟨_, l, ?_⟩
  rw [hi.2, hb.2, hx6] at e
  exact RowEq.sub_trans e n2

/-- The result of planning is legal in one task and means the same. -/
theorem plan_src (he : EnvOk env) {p p' : Plan Row} {J : SInfo Row} (h : Src env .pre p J) (hrep : J.rep = false)
    (hroot : RootOk env p J)
    (hp : plan env p = .ok (some p')) :
    ∃ d, Legal false 1 p' ⟨1, d, false, J.eqv⟩ ∧ J.eqv.sub (Answer p') (Answer p) := by
  unfold plan at hp
  obtain ⟨q, h1, hp⟩ := bind_ok hp
  obtain ⟨r, h2, hp⟩ := bind_ok hp
  obtain ⟨⟨q', id⟩, h5, hp⟩ := bind_ok hp
  obtain ⟨d, l, e⟩ := injected_src he h hrep hroot h1 h2
  obtain ⟨q'', id', l1, l2, l3⟩ := l.prepare (keep := false) Nat.one_pos 1
  rw [h5] at l1
  obtain ⟨rfl, -⟩ := Prod.mk.inj (Except.ok.inj l1)
  rw [← l3] at e
  simp only at hp
  cases hn : hasNet q' with
  | false => rw [hn] at hp; cases hp
  | true =>
    rw [hn] at hp
    have h6 := Option.some.inj (Except.ok.inj hp)
    subst h6
    cases env.partialReduce with
    | false => exact ⟨_, l2, e⟩
    | true =>
      obtain ⟨r1, r2⟩ := l2.partialReduce Nat.one_pos
      exact ⟨_, r1, RowEq.sub_trans r2 e⟩

end DD.Tree
