/-
`prepare_network_boundaries` succeeds on legal plans and keeps them legal, with the same meaning.
-/
import Verif.Lemmas.PlanExec

namespace DD.Tree

variable {Row : Type} {keep : Bool}

theorem prepareAll_ok (Q : Nat → Plan Row → Prop) : ∀ (cs : List (Plan Row)) (ts : List Nat) (id : Nat),
    cs.length = ts.length →
    (∀ (i : Nat) c t, cs[i]? = some c → ts[i]? = some t → ∀ id, ∃ c' id', prepare keep c t id = .ok (c', id') ∧ Q i c') →
    ∃ cs' id', prepareAll keep cs ts id = .ok (cs', id') ∧ cs'.length = cs.length
      ∧ ∀ (i : Nat) c', cs'[i]? = some c' → Q i c' := by
  intro cs
  induction cs generalizing Q with
  | nil =>
    intro ts id _ _
    exact ⟨[], id, rfl, rfl, by simp⟩
  | cons c cs ih =>
    intro ts id hl h
    cases ts with
    | nil => simp at hl
    | cons t ts =>
      obtain ⟨c', id1, h1, q1⟩ := h 0 c t rfl rfl id
      obtain ⟨cs', id2, h2, l2, q2⟩ := ih (fun i => Q (i + 1)) ts id1 (by simpa using hl)
        (fun i c t e1 e2 => h (i + 1) c t (by simpa using e1) (by simpa using e2))
      refine ⟨c' :: cs', id2, ?_, by simp [l2], ?_⟩
      · rw [prepareAll, h1]
        show (do let (cs, id) ← prepareAll keep cs ts id1; _) = _
        rw [h2]
        rfl
      · intro i c'' hi
        cases i with
        | zero => simp at hi; subst hi; exact q1
        | succ i => exact q2 i c'' (by simpa using hi)

/-- A node that is not a boundary only has its children prepared. -/
theorem prepare_plain {k : Kind Row} (hk : k.isNet = false) (Q : Nat → Plan Row → Prop) (tc : TaskCount)
    (cs : List (Plan Row)) (t : Nat) (hl : (childCounts k t cs.length).length = cs.length)
    (h : ∀ (i : Nat) c t', cs[i]? = some c → (childCounts k t cs.length)[i]? = some t' →
      ∀ id, ∃ c' id', prepare keep c t' id = .ok (c', id') ∧ Q i c') (id : Nat) :
    ∃ cs' id', prepare keep (.node k tc cs) t id = .ok (.node k tc cs', id') ∧ cs'.length = cs.length
      ∧ ∀ (i : Nat) c', cs'[i]? = some c' → Q i c' := by
  obtain ⟨cs', id', h1, h2, h3⟩ := prepareAll_ok Q cs _ id hl.symm h
  refine ⟨cs', id', ?_, h2, h3⟩
  rw [prepare, h1]
  show prepareNode keep _ _ _ = _
  cases cs' with
  | nil => rfl
  | cons c cs' => simp [prepareNode, hk]

/-- The usual case: all children run with the task count of the node. -/
theorem prepare_same {k : Kind Row} (hk : k.isNet = false) (hc : ∀ ws m, k ≠ .ciu ws m)
    (Q : Nat → Plan Row → Prop) (tc : TaskCount) (cs : List (Plan Row)) (t : Nat)
    (h : ∀ (i : Nat) c, cs[i]? = some c → ∀ id, ∃ c' id', prepare keep c t id = .ok (c', id') ∧ Q i c') (id : Nat) :
    ∃ cs' id', prepare keep (.node k tc cs) t id = .ok (.node k tc cs', id') ∧ cs'.length = cs.length
      ∧ ∀ (i : Nat) c', cs'[i]? = some c' → Q i c' := by
  have hcc : childCounts k t cs.length = List.replicate cs.length t := by
    unfold childCounts
    split
    · rename_i ws m; exact absurd rfl (hc ws m)
    · simp [hk]
  refine prepare_plain hk Q tc cs t (by simp [hcc]) ?_ id
  intro i c t' e1 e2 id
  rw [hcc, List.getElem?_replicate] at e2
  split at e2
  · simp at e2; subst e2; exact h i c e1 id
  · simp at e2

/-- One child. -/
theorem prepare_one {k : Kind Row} (hk : k.isNet = false) (hc : ∀ ws m, k ≠ .ciu ws m)
    {Q : Plan Row → Prop} (tc : TaskCount) (c : Plan Row) (t : Nat)
    (h : ∀ id, ∃ c' id', prepare keep c t id = .ok (c', id') ∧ Q c') (id : Nat) :
    ∃ c' id', prepare keep (.node k tc [c]) t id = .ok (.node k tc [c'], id') ∧ Q c' := by
  obtain ⟨cs', id', h1, h2, h3⟩ := prepare_same hk hc (fun _ => Q) tc [c] t (by
    intro i c' e id
    match i with
    | 0 => simp at e; subst e; exact h id
    | i + 1 => simp at e) id
  match cs', h2 with
  | [c'], _ => exact ⟨c', id', h1, h3 0 c' rfl⟩

/-- Two children. -/
theorem prepare_two {k : Kind Row} (hk : k.isNet = false) (hc : ∀ ws m, k ≠ .ciu ws m)
    {Q Q' : Plan Row → Prop} (tc : TaskCount) (c d : Plan Row) (t : Nat)
    (h : ∀ id, ∃ c' id', prepare keep c t id = .ok (c', id') ∧ Q c')
    (h' : ∀ id, ∃ c' id', prepare keep d t id = .ok (c', id') ∧ Q' c') (id : Nat) :
    ∃ c' d' id', prepare keep (.node k tc [c, d]) t id = .ok (.node k tc [c', d'], id') ∧ Q c' ∧ Q' d' := by
  obtain ⟨cs', id', h1, h2, h3⟩ := prepare_same hk hc (fun i => if i = 0 then Q else Q') tc [c, d] t (by
    intro i c' e id
    match i with
    | 0 => simp at e; subst e; exact h id
    | 1 => simp at e; subst e; exact h' id
    | i + 2 => simp at e) id
  match cs', h2 with
  | [c', d'], _ => exact ⟨c', d', id', h1, h3 0 c' rfl, h3 1 d' rfl⟩

/-- A boundary. -/
theorem prepare_net {k : Kind Row} (hk : k.isNet = true) {Q : Plan Row → Prop} (tc : TaskCount) (c : Plan Row)
    (t : Nat) (h : ∀ id, ∃ c' id', prepare keep c k.tasks id = .ok (c', id') ∧ Q c') (id : Nat) :
    ∃ c' id', prepare keep (.node k tc [c]) t id = prepareNode keep (.node k tc [c']) t id' ∧ Q c' := by
  obtain ⟨c', id', h1, q⟩ := h id
  refine ⟨c', id', ?_, q⟩
  have hcc : childCounts k t 1 = [k.tasks] := by
    unfold childCounts
    split
    · simp [Kind.isNet] at hk
    · simp [hk]
  rw [prepare]
  simp only [List.length_cons, List.length_nil, Nat.zero_add, hcc, prepareAll]
  rw [h1]
  rfl

theorem prepareNode_elide {k : Kind Row} (hk : k.isNet = true) {tc c t id} (h : keep = false ∧ t = 1 ∧ k.tasks = 1) :
    prepareNode keep (.node k tc [c]) t id = .ok (c, id) := by
  simp [prepareNode, hk, h]

theorem prepareNode_keep {k : Kind Row} (hk : k.isNet = true) {tc c t id} (h : ¬ (keep = false ∧ t = 1 ∧ k.tasks = 1)) :
    prepareNode keep (.node k tc [c]) t id
      = (do let c ← (k.head t).insert c; .ok (.node (k.withStage id) tc [c], id + 1)) := by
  simp only [prepareNode, hk, Bool.not_true, Bool.false_eq_true, if_false, if_neg h]

theorem childCounts_ciu {ws m} {n t : Nat} {k : Nat → Nat} (h : Union.RunsAll n k m) :
    (childCounts (Row := Row) (.ciu ws m) t n).length = n
    ∧ ∀ c < n, (childCounts (Row := Row) (.ciu ws m) t n).getD c 0 = k c := by
  unfold childCounts
  simp only
  rw [Union.childTaskCounts_eq]
  simp only [List.length_replicate]
  have hmem : ∀ e ∈ m.flatten, e.1 < n ∧ e.2.count = k e.1 := by
    intro e he
    have := Union.mem_childTasks.mp (h.2.mem_iff.mp he)
    exact ⟨this.1, this.2.2⟩
  obtain ⟨i1, i2⟩ := Union.bump_fold k m.flatten (List.replicate n 0)
    (fun e he => by simpa using hmem e he)
  refine ⟨by simpa using i1, fun c hc => ?_⟩
  obtain ⟨j1, _, j3⟩ := i2 c
  have h0 : (List.replicate n 0).getD c 0 = 0 := by
    simp [List.getD_eq_getElem?_getD, hc]
  have hin : ((c, ⟨0, k c⟩) : Union.Entry) ∈ m.flatten :=
    h.2.mem_iff.mpr (Union.mem_childTasks.mpr ⟨hc, h.1 c hc, rfl⟩)
  exact Nat.le_antisymm (j1 (by rw [h0]; omega)) (j3 ⟨_, hin, rfl⟩)

/-- Preparing a legal plan succeeds, and the result is legal, with the same guarantees and meaning. -/
theorem Legal.prepare {T : Nat} {p : Plan Row} {I : Info Row} (h : Legal true T p I) (hT : 0 < T) :
    ∀ id, ∃ p' id', Tree.prepare keep p T id = .ok (p', id') ∧ Legal false T p' I ∧ Answer p' = Answer p := by
  induction h with
  | leaf hne =>
    intro id
    exact ⟨_, id, rfl, .leaf hne, rfl⟩
  | distLeaf h0 h1 h2 h3 h4 =>
    intro id
    exact ⟨_, id, rfl, .distLeaf h0 h1 h2 h3 h4, rfl⟩
  | @opLocal tc g red c T P d d' E E' hg hr hd _ ih =>
    intro id
    obtain ⟨c', id', h1, l, e⟩ := prepare_one (k := .op g red) rfl (by simp) tc c T (ih hT) id
    exact ⟨_, id', h1, .opLocal hg hr hd l, answer_unary e⟩
  | @opKeyed tc g red cs T P hs Es d' E' hk hred hd hne hl hl' hcs ih =>
    intro id
    obtain ⟨cs', id', h1, h2, h3⟩ := prepare_same (k := .op g red) rfl (by simp)
      (fun i c' => (∀ h E, hs[i]? = some h → Es[i]? = some E → Legal false T c' ⟨P, some h, false, E⟩)
        ∧ ∀ c, cs[i]? = some c → Answer c' = Answer c) tc cs T (by
        intro i c hi id
        have hlt := (List.getElem?_eq_some_iff.mp hi).1
        obtain ⟨c', id', a1, a2, a3⟩ := ih i c (hs[i]'(by omega)) (Es[i]'(by omega)) hi (by simp) (by simp) hT id
        refine ⟨c', id', a1, ?_, ?_⟩
        · intro h E e1 e2
          have : hs[i]'(by omega) = h := by simpa using (List.getElem?_eq_some_iff.mp e1).2
          have : Es[i]'(by omega) = E := by simpa using (List.getElem?_eq_some_iff.mp e2).2
          subst_vars; exact a2
        · intro c2 hc2; rw [hi] at hc2; cases hc2; exact a3) id
    refine ⟨_, id', h1, .opKeyed hk hred hd ?_ (by omega) (by omega) ?_, ?_⟩
    · intro h; subst h; simp at h2; exact hne (List.length_eq_zero_iff.mp h2.symm)
    · intro i c h E e1 e2 e3; exact (h3 i c e1).1 h E e2 e3
    · exact answer_congr h2 fun i c' e => (h3 i c' e).2
  | @opSingle tc g red cs Es E' hg hred hne hl hcs ih =>
    intro id
    obtain ⟨cs', id', h1, h2, h3⟩ := prepare_same (k := .op g red) rfl (by simp)
      (fun i c' => (∀ E, Es[i]? = some E → Legal false 1 c' ⟨1, none, false, E⟩)
        ∧ ∀ c, cs[i]? = some c → Answer c' = Answer c) tc cs 1 (by
        intro i c hi id
        have hlt := (List.getElem?_eq_some_iff.mp hi).1
        obtain ⟨c', id', a1, a2, a3⟩ := ih i c (Es[i]'(by omega)) hi (by simp) hT id
        refine ⟨c', id', a1, ?_, ?_⟩
        · intro E e2
          have : Es[i]'(by omega) = E := by simpa using (List.getElem?_eq_some_iff.mp e2).2
          subst_vars; exact a2
        · intro c2 hc2; rw [hi] at hc2; cases hc2; exact a3) id
    refine ⟨_, id', h1, .opSingle hg hred ?_ (by omega) ?_, ?_⟩
    · intro h; subst h; simp at h2; exact hne (List.length_eq_zero_iff.mp h2.symm)
    · intro i c E e1 e2; exact (h3 i c e1).1 E e2
    · exact answer_congr h2 fun i c' e => (h3 i c' e).2
  | @joinSafe tc m s b p T P d d' hm hs hd _ _ ihb ihp =>
    intro id
    obtain ⟨b', p', id', h1, ⟨lb, eb⟩, lp, ep⟩ := prepare_two (k := .join m s) rfl (by simp) tc b p T (ihb hT) (ihp hT) id
    exact ⟨_, id', h1, .joinSafe hm hs hd lb lp, answer_binary eb ep⟩
  | @joinSingle tc m s b p P hm hu _ _ ihb ihp =>
    intro id
    obtain ⟨b', p', id', h1, ⟨lb, eb⟩, lp, ep⟩ := prepare_two (k := .join m s) rfl (by simp) tc b p 1 (ihb hT) (ihp hT) id
    exact ⟨_, id', h1, .joinSingle hm hu lb lp, answer_binary eb ep⟩
  | @joinPart tc s l r T P d' he hn hd _ _ ihl ihr =>
    intro id
    obtain ⟨b', p', id', h1, ⟨lb, eb⟩, lp, ep⟩ := prepare_two (k := .join .partitioned s) rfl (by simp) tc l r T (ihl hT) (ihr hT) id
    exact ⟨_, id', h1, .joinPart he hn hd lb lp, answer_binary eb ep⟩
  | @union tc cs T E Ps hne hl hcs ih =>
    intro id
    obtain ⟨cs', id', h1, h2, h3⟩ := prepare_same (k := .union) rfl (by simp)
      (fun i c' => (∀ P, Ps[i]? = some P → Legal false T c' ⟨P, none, false, E⟩)
        ∧ ∀ c, cs[i]? = some c → Answer c' = Answer c) tc cs T (by
        intro i c hi id
        have hlt := (List.getElem?_eq_some_iff.mp hi).1
        obtain ⟨c', id', a1, a2, a3⟩ := ih i c (Ps[i]'(by omega)) hi (by simp) hT id
        refine ⟨c', id', a1, ?_, ?_⟩
        · intro P e2
          have : Ps[i]'(by omega) = P := by simpa using (List.getElem?_eq_some_iff.mp e2).2
          subst_vars; exact a2
        · intro c2 hc2; rw [hi] at hc2; cases hc2; exact a3) id
    refine ⟨_, id', h1, .union ?_ (by omega) ?_, ?_⟩
    · intro h; subst h; simp at h2; exact hne (List.length_eq_zero_iff.mp h2.symm)
    · intro i c P e1 e2; exact (h3 i c e1).1 P e2
    · exact answer_congr h2 fun i c' e => (h3 i c' e).2
  | @ciu tc ws m cs T E k Ps hne hl hm hr ho hcs ih =>
    intro id
    obtain ⟨cl, cg⟩ := childCounts_ciu (Row := Row) (ws := ws) (t := T) hr
    obtain ⟨cs', id', h1, h2, h3⟩ := prepare_plain (k := .ciu ws m) rfl
      (fun i c' => (∀ P, Ps[i]? = some P → Legal false (k i) c' ⟨P, none, false, E⟩)
        ∧ ∀ c, cs[i]? = some c → Answer c' = Answer c) tc cs T cl (by
        intro i c t' hi ht' id
        have hlt := (List.getElem?_eq_some_iff.mp hi).1
        have ht : t' = k i := by
          rw [← cg i hlt, List.getD_eq_getElem?_getD, ht']; rfl
        subst ht
        obtain ⟨c', id', a1, a2, a3⟩ := ih i c (Ps[i]'(by omega)) hi (by simp) (hr.1 i hlt) id
        refine ⟨c', id', a1, ?_, ?_⟩
        · intro P e2
          have : Ps[i]'(by omega) = P := by simpa using (List.getElem?_eq_some_iff.mp e2).2
          subst_vars; exact a2
        · intro c2 hc2; rw [hi] at hc2; cases hc2; exact a3) id
    refine ⟨_, id', h1, .ciu ?_ (by omega) hm (h2 ▸ hr) ho ?_, ?_⟩
    · intro h; subst h; simp at h2; exact hne (List.length_eq_zero_iff.mp h2.symm)
    · intro i c P e1 e2; exact (h3 i c e1).1 P e2
    · exact answer_congr h2 fun i c' e => (h3 i c' e).2
  | @hashRepart tc h n o c T P E d' hn hd _ ih =>
    intro id
    obtain ⟨c', id', h1, l, e⟩ := prepare_one (k := .hashRepart h n _) rfl (by simp) tc c T (ih hT) id
    exact ⟨_, id', h1, .hashRepart hn hd l, answer_unary e⟩
  | @otherRepart tc n deal c T P E hn hd _ ih =>
    intro id
    obtain ⟨c', id', h1, l, e⟩ := prepare_one (k := .otherRepart n deal) rfl (by simp) tc c T (ih hT) id
    exact ⟨_, id', h1, .otherRepart hn hd l, answer_unary e⟩
  | @coalesce tc c T P rep E _ ih =>
    intro id
    obtain ⟨c', id', h1, l, e⟩ := prepare_one (k := .coalesce none) rfl (by simp) tc c T (ih hT) id
    exact ⟨_, id', h1, .coalesce l, answer_unary e⟩
  | @spm tc c T P rep E le _ ih =>
    intro id
    obtain ⟨c', id', h1, l, e⟩ := prepare_one (k := .spm none _) rfl (by simp) tc c T (ih hT) id
    exact ⟨_, id', h1, .spm l, answer_unary e⟩
  | @fetch tc k g c P E E' hk hg _ ih =>
    intro id
    obtain ⟨c', id', h1, l, e⟩ := prepare_one (k := k) (by rcases hk with rfl | ⟨le, rfl⟩ <;> rfl)
      (by rcases hk with rfl | ⟨le, rfl⟩ <;> simp) tc c 1 (ih hT) id
    exact ⟨_, id', h1, .fetch hk hg l, answer_unary e⟩
  | @broadcast tc c T P rep E _ ih =>
    intro id
    obtain ⟨c', id', h1, l, e⟩ := prepare_one (k := .broadcast 1) rfl (by simp) tc c T (ih hT) id
    exact ⟨_, id', h1, .broadcast l, answer_unary e⟩
  | @shuffle tc h p N num c T P E hp hN hph hpos hc ih =>
    intro id
    obtain ⟨o, tc', x, rfl⟩ := hph rfl
    obtain ⟨c', id', h1, x', rfl, l, e⟩ := prepare_net (k := .shuffle h p N num) rfl tc _ T
      (Q := fun c' => ∃ x', c' = .node (.hashRepart h p o) tc' [x'] ∧ Legal false N x' ⟨P, none, false, E⟩ ∧ Answer x' = Answer x)
      (fun id => by
        obtain ⟨x', id', a1, a2, a3⟩ := prepare_one (k := .hashRepart h p o) rfl (by simp) tc' x N (ih hN) id
        exact ⟨_, id', a1, x', rfl, a2, a3⟩) id
    rw [h1]
    by_cases he : keep = false ∧ T = 1 ∧ N = 1
    · rw [prepareNode_elide rfl he]
      obtain ⟨-, rfl, rfl⟩ := he
      refine ⟨_, id', rfl, .hashRepart hp (by intro h' hh; simp at hh; exact ⟨hh.symm, rfl⟩) l, ?_⟩
      rw [answer_pass (ansKind_head (.inl rfl)), answer_pass (ansKind_head (.inr rfl)), answer_pass (ansKind_head (.inl rfl)), e]
    · rw [prepareNode_keep rfl he]
      refine ⟨.node (.shuffle h p N id') tc [.node (.hashRepart h (p * T) none) tc' [x']], id' + 1, rfl,
        .shuffle hp hN (by simp) ⟨by rintro h' n o ⟨⟩; exact Nat.mul_pos hp hT, fun _ => rfl⟩ l, ?_⟩
      rw [answer_pass (ansKind_head (.inr rfl)), answer_pass (ansKind_head (.inl rfl)), answer_pass (ansKind_head (.inr rfl)),
        answer_pass (ansKind_head (.inl rfl)), e]
  | @netCoalesce tc p N num c T P E hN hp hh hnet hc ih =>
    intro id
    have hnet := hnet rfl
    have hsc : strip c = c := by
      cases c with
      | node k t cs =>
        cases cs with
        | nil => rfl
        | cons a cs => simp only [Plan.kind] at hh; simp [strip, hh]
    rw [hsc] at ih hc
    obtain ⟨c', id', h1, l, e, hk'⟩ := prepare_net (k := .netCoalesce p N num) rfl tc c T
      (Q := fun c' => Legal false N c' ⟨P, none, false, E⟩ ∧ Answer c' = Answer c ∧ c'.kind.isHead = false)
      (fun id => by
        obtain ⟨c', id', a1, a2, a3⟩ := ih hN id
        refine ⟨c', id', a1, a2, a3, ?_⟩
        cases c with
        | node k t cs =>
          simp only [Plan.kind] at hh hnet
          rw [Tree.prepare] at a1
          cases hall : prepareAll keep cs (childCounts k N cs.length) id with
          | error => rw [hall] at a1; cases a1
          | ok r =>
            rw [hall] at a1
            obtain ⟨cs', id1⟩ := r
            have : prepareNode keep (.node k t cs') N id1 = .ok (.node k t cs', id1) := by
              cases cs' with
              | nil => rfl
              | cons a cs' => simp [prepareNode, hnet]
            have a1' : prepareNode keep (.node k t cs') N id1 = .ok (c', id') := a1
            rw [this] at a1'
            cases a1'
            exact hh) id
    have hsc' : strip c' = c' := by
      cases c' with
      | node k t cs =>
        cases cs with
        | nil => rfl
        | cons a cs => simp only [Plan.kind] at hk'; simp [strip, hk']
    rw [h1]
    by_cases he : keep = false ∧ T = 1 ∧ N = 1
    · rw [prepareNode_elide rfl he]
      obtain ⟨-, rfl, rfl⟩ := he
      have : p = P := by rw [hp]; simp [divCeil]
      subst this
      exact ⟨c', id', rfl, l, by rw [e, answer_pass (ansKind_head (.inr rfl))]⟩
    · rw [prepareNode_keep rfl he]
      have hw : Kind.withStage (Row := Row) (.netCoalesce p N num) id' = .netCoalesce p N id' := by
        have hm : max N 1 = N := by omega
        simp only [Kind.withStage, CoalesceExec.withInputStage, hm, Nat.mul_div_cancel _ hN]
      refine ⟨.node (.netCoalesce p N id') tc [c'], id' + 1, ?_, .netCoalesce hN hp hk' (by simp) (hsc'.symm ▸ l), ?_⟩
      · simp only [Kind.head, Head.insert, hsc', hw]; rfl
      · rw [answer_pass (ansKind_head (.inr rfl)), answer_pass (ansKind_head (.inr rfl)), e]
  | @netBroadcast tc p N num c T E hN hph hc ih =>
    intro id
    obtain ⟨n, tc', x, rfl, hn1⟩ := hph
    obtain rfl := hn1 rfl
    obtain ⟨c', id', h1, x', rfl, l, e⟩ := prepare_net (k := .netBroadcast p N num) rfl tc _ T
      (Q := fun c' => ∃ x', c' = .node (.broadcast 1) tc' [x'] ∧ Legal false N x' ⟨p, none, false, E⟩ ∧ Answer x' = Answer x)
      (fun id => by
        obtain ⟨x', id', a1, a2, a3⟩ := prepare_one (k := .broadcast 1) rfl (by simp) tc' x N (ih hN) id
        exact ⟨_, id', a1, x', rfl, a2, a3⟩) id
    rw [h1]
    by_cases he : keep = false ∧ T = 1 ∧ N = 1
    · rw [prepareNode_elide rfl he]
      obtain ⟨-, rfl, rfl⟩ := he
      refine ⟨_, id', rfl, .repFlip (.broadcast l), ?_⟩
      rw [answer_pass (ansKind_head (.inl rfl)), answer_pass (ansKind_head (.inr rfl)), answer_pass (ansKind_head (.inl rfl)), e]
    · rw [prepareNode_keep rfl he]
      have hparts : x'.parts = p := by
        obtain ⟨_, _, hg⟩ := l.good hN true
        exact hg.parts
      have hpos : 0 < p := l.pos
      refine ⟨.node (.netBroadcast p N id') tc [.node (.broadcast T) tc' [x']], id' + 1, ?_,
        .netBroadcast hN ⟨T, tc', x', rfl, by simp⟩ l, ?_⟩
      · simp only [Kind.head, Head.insert, strip, Kind.isHead, if_true, hparts, BroadcastExec.ofHead,
          if_neg (Nat.ne_of_gt hpos), Nat.mul_div_cancel_left T hpos]
        rfl
      · rw [answer_pass (ansKind_head (.inr rfl)), answer_pass (ansKind_head (.inl rfl)), answer_pass (ansKind_head (.inr rfl)),
          answer_pass (ansKind_head (.inl rfl)), e]
  | forget _ ih =>
    intro id
    obtain ⟨p', id', h1, l, e⟩ := ih hT id
    exact ⟨p', id', h1, .forget l, e⟩
  | trivial _ ih =>
    intro id
    obtain ⟨p', id', h1, l, e⟩ := ih hT id
    exact ⟨p', id', h1, .trivial l, e⟩
  | repFlip _ ih =>
    intro id
    obtain ⟨p', id', h1, l, e⟩ := ih hT id
    exact ⟨p', id', h1, .repFlip l, e⟩
  | coarsen hE _ ih =>
    intro id
    obtain ⟨p', id', h1, l, e⟩ := ih hT id
    exact ⟨p', id', h1, .coarsen hE l, e⟩

end DD.Tree
