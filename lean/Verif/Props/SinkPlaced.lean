/-
Statements that write the rows of a query in which the user placed the exchanges (C94).
-/
import Verif.Props.Sink
import Verif.Props.Placed

namespace DD.Tree.Create

open DD.Tree

variable {Row : Type} {env : Env Row} {fuel : Nat} {S : Op Row → Prop}

theorem Scaled.free (hf : ScalesFree S env) {T : Nat} {p p' : Plan Row} (h : Scaled env T p p') (hp : Free S p) : Free S p' := by
  induction h with
  | kept => exact hp
  | scaled e => exact hf _ _ _ hp e
  | node hne hl _ ih =>
    refine hp.same fun c' hc => ?_
    obtain ⟨i, hi⟩ := List.mem_iff_getElem?.mp hc
    have hlt := (List.getElem?_eq_some_iff.mp hi).1
    have e := List.getElem?_eq_getElem (hl ▸ hlt)
    exact ih i _ c' e hi (hp.kids _ (List.mem_of_getElem? e))

/-- Scaling the leaves up keeps the operator at the root. -/
theorem scaled_writing (hf : ScalesFree S env) {g : Op Row} {T : Nat} {c p' : Plan Row} (h : Scaled env T (writing g c) p') :
    ∃ tc c', (Free S c → Free S c') ∧ p' = .node (.op g none) tc [c'] := by
  unfold writing fresh at h
  cases h with
  | node hne hl hi =>
    obtain ⟨c', rfl⟩ := List.length_eq_one_iff.mp (hl.trans rfl)
    exact ⟨_, c', (hi 0 c c' rfl rfl).free hf, rfl⟩

/-- **C94** (user-placed boundaries) For every query in which the user placed boundaries where they may be, in every session that fixes
task counts before running: if the statement that writes its rows is planned, the node that writes is at the root of the head stage,
which the coordinator executes once; no node that writes is in any other place; and what is written are the rows of one of the answers
of the query, each as often as it is in the answer. This includes statements that become local because all boundaries were between
single tasks. Missing: what `C08_user_boundaries_partial` misses. -/
theorem C94_user_boundaries_partial (hs : ScalesToLeaf env) (hf : ScalesFree S env) {g : Op Row} (hw : Writes g) {c : Plan Row}
    (hn : hasNet c = true) (hc : Free S c) (h : Placed env 1 c ⟨1, none, false, .perm⟩) {q : Phys Row}
    (hq : create env false fuel (.plan (writing g c)) = .ok q) :
    ∃ tc c', (q = .distributed (.plan (.node (.op g none) tc [c'])) ∨ q = .plan (.node (.op g none) tc [c']))
      ∧ (∀ T t x, At T c' t x → ∀ g' red, x.kind = .op g' red → ¬ S g')
      ∧ ∃ d, Answer c d ∧ (written (.node (.op g none) tc [c'])).Perm d := by
  have hn' : hasNet (writing g c) = true := by simp [writing, fresh, hasNet, hasNetAny, hn]
  have hpl : Placed env 1 (writing g c) ⟨1, none, false, .perm⟩ := by
    refine .opSingle hw.whole (by rintro r ⟨⟩) (by simp) rfl fun i c0 E e1 e2 => ?_
    match i with
    | 0 => cases e1; cases e2; exact h
    | i + 1 => simp at e1
  obtain ⟨p', h1, _, _, r, hr, hd⟩ := (C08_user_boundaries_partial (fuel := fuel) hs hn' hpl).2 q hq
  have h2 : prepareUser env fuel (writing g c) = .ok p' := by
    rw [create_user hn'] at hq
    obtain ⟨p2, h2, hq⟩ := mbind_ok hq
    split at hq <;> cases hq <;> rcases h1 with ⟨_, e⟩ | ⟨_, e⟩ <;> cases e <;> exact h2
  obtain ⟨p1, h3, h2⟩ := mbind_ok h2
  obtain ⟨⟨p2, id⟩, h4, h2⟩ := mbind_ok h2
  cases h2
  obtain ⟨tc, c1, f1, rfl⟩ := scaled_writing hf (scaleLeaves_spec hs h3)
  have h4 : prepare false (.node (.op g none) tc [c1]) 1 1 = .ok (p', id) := by
    revert h4
    cases prepare false (.node (.op g none) tc [c1]) 1 1 with
    | error e => intro h; cases h
    | ok x => intro h; cases h; rfl
  obtain ⟨c2, f2, rfl⟩ := prepare_writing (S := S) h4
  rw [answer_writing hw] at hr
  rw [written_eq hw] at hd
  exact ⟨tc, c2, h1.elim (fun x => .inl x.2) (fun x => .inr x.2), fun T t x hx => (f2 (f1 hc)).at hx, r, hr, hd⟩

/-- Non-vacuity: a two-step aggregation whose exchanges the user placed, for three tasks that scan and two that finalise. -/
example : ∃ q, create DD.Tree.Demo.sess false 20 (.plan (writing DD.Tree.Demo.sinkOp (Demo.userSum 3 2))) = .ok q
    ∧ ∃ tc c', (q = .distributed (.plan (.node (.op DD.Tree.Demo.sinkOp none) tc [c']))
        ∨ q = .plan (.node (.op DD.Tree.Demo.sinkOp none) tc [c']))
      ∧ (∀ T t x, At T c' t x → ∀ g' red, x.kind = .op g' red → ¬ DD.Tree.Demo.AsksOrder g')
      ∧ ∃ d, Answer (Demo.userSum 3 2) d ∧ (written (.node (.op DD.Tree.Demo.sinkOp none) tc [c'])).Perm d := by
  have h : (match create DD.Tree.Demo.sess false 20 (.plan (writing DD.Tree.Demo.sinkOp (Demo.userSum 3 2))) with
      | .ok (.distributed _) => true | _ => false) = true := by
    decide +kernel
  have hfree : Free DD.Tree.Demo.AsksOrder (Demo.userSum 3 2) := by
    refine .one (by rintro _ _ ⟨⟩) (.one (by rintro _ _ ⟨⟩) (.node ?_ ?_))
    · rintro g red ⟨⟩
      exact ⟨(by intro h; cases h), by rintro _ ⟨⟩⟩
    · simp only [List.mem_singleton, forall_eq]
      refine .one (by rintro _ _ ⟨⟩) (.one (by rintro _ _ ⟨⟩) (.node ?_ ?_))
      · rintro g red ⟨⟩
        exact ⟨(by intro h; cases h), by rintro r ⟨⟩ h; cases h⟩
      · simp only [List.mem_singleton, forall_eq]
        exact .plain (by rintro _ _ ⟨⟩) (by simp)
  split at h
  · rename_i p' hp
    exact ⟨_, hp, C94_user_boundaries_partial Demo.sess_scales DD.Tree.Demo.sess_scalesFree DD.Tree.Demo.sinkOp_writes (by decide +kernel)
      hfree (Demo.userSum_placed (by decide) (by decide)) hp⟩
  · cases h

end DD.Tree.Create
