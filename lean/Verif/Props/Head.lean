/-
**C08**, **C58** for plans whose root is not gathered: the coordinator runs the head stage as one task whatever was planned.
-/
import Verif.Spec.Head
import Verif.Lemmas.PlanHead
import Verif.Props.Plan
import Verif.Props.Dynamic

namespace DD.Tree

variable {Row : Type} {env : Env Row}

/-! ### The passes before the boundaries are placed -/

theorem insertBroadcast_children {k : Kind Row} {tc cs} :
    (insertBroadcast (.node k tc cs)).children.length = cs.length := by
  rw [insertBroadcast, insertBroadcastAll_eq]
  split
  · rename_i b rest e
    have : cs.length = (b :: rest).length := by rw [← e]; simp
    simp only [Plan.children]
    split <;> simp_all
  · rename_i e
    have : cs = [] := by simpa using e
    subst this
    rfl

theorem HeadOk.broadcastBuild (p : Plan Row) : HeadOk (broadcastBuild p) := by
  unfold DD.Tree.broadcastBuild
  split <;> exact .ends rfl (fun _ => rfl)

theorem HeadOk.insertBroadcast {p : Plan Row} (h : HeadOk p) : HeadOk (insertBroadcast p) := by
  induction h with
  | leaf h => exact .leaf h
  | @op tc g red cs hne _ ih =>
    rw [insertBroadcast_plain rfl]
    refine .op (by simpa using hne) fun c hc => ?_
    obtain ⟨x, hx, rfl⟩ := List.mem_map.mp hc
    exact ih x hx
  | @join tc m s cs hne _ ih =>
    have hc : ∀ c ∈ cs.map DD.Tree.insertBroadcast, HeadOk c := by
      intro c hc
      obtain ⟨x, hx, rfl⟩ := List.mem_map.mp hc
      exact ih x hx
    rw [DD.Tree.insertBroadcast, insertBroadcastAll_eq]
    split
    · rename_i b rest e
      rw [e] at hc
      split
      · refine .join (by simp) fun c hm => ?_
        rcases List.mem_cons.mp hm with rfl | hm
        · exact .broadcastBuild b
        · exact hc c (by simp [hm])
      · exact .join (by simp) hc
    · rename_i e
      exact absurd (by simpa using e) hne
  | @ends k tc c hk hl =>
    rw [insertBroadcast_plain (by cases k <;> first | rfl | cases hk)]
    refine .ends hk fun h => ?_
    rw [insertBroadcast_kind] at h
    have := hl h
    cases c
    rw [insertBroadcast_children]
    exact this

theorem HeadOk.isolateUnions {p : Plan Row} (h : HeadOk p) : ∀ {p'}, isolateUnions p = .ok p' → HeadOk p' := by
  induction h with
  | leaf h =>
    intro p' e
    cases e
    exact .leaf h
  | @op tc g red cs hne _ ih =>
    intro p' e
    rw [DD.Tree.isolateUnions] at e
    obtain ⟨cs', e1, e⟩ := bind_ok e
    cases e
    obtain ⟨l, hi⟩ := isolateUnionsAll_inv e1
    refine .op (by rintro rfl; exact hne (List.length_eq_zero_iff.mp l.symm)) fun c hc => ?_
    obtain ⟨i, hi', rfl⟩ := List.getElem_of_mem hc
    obtain ⟨c, x1, x2⟩ := hi i cs'[i] (by simp)
    exact ih c (List.mem_of_getElem? x1) x2
  | @join tc m s cs hne _ ih =>
    intro p' e
    rw [DD.Tree.isolateUnions] at e
    obtain ⟨cs', e1, e⟩ := bind_ok e
    cases e
    obtain ⟨l, hi⟩ := isolateUnionsAll_inv e1
    refine .join (by rintro rfl; exact hne (List.length_eq_zero_iff.mp l.symm)) fun c hc => ?_
    obtain ⟨i, hi', rfl⟩ := List.getElem_of_mem hc
    obtain ⟨c, x1, x2⟩ := hi i cs'[i] (by simp)
    exact ih c (List.mem_of_getElem? x1) x2
  | @ends k tc c hk hl =>
    intro p' e
    obtain ⟨cs', l, hi, e | ⟨rfl, _⟩⟩ := isolateUnions_inv e
    · obtain ⟨c', rfl⟩ := one_of_length (by simpa using l)
      obtain ⟨c0, x1, x2⟩ := hi 0 c' rfl
      cases x1
      obtain ⟨_, rfl⟩ := e
      refine .ends hk fun h => ?_
      cases c with
      | node kc tcc ccs =>
        obtain ⟨ccs', y1, _, ⟨_, rfl⟩ | ⟨_, ws, m, rfl⟩⟩ := isolateUnions_inv x2
        · exact y1.trans (hl h)
        · cases h
    · cases hk

theorem Top.parts {ph : Phase} {p : Plan Row} {E : RowEq Row} (h : Top env ph p E) : p.parts = 1 := by
  induction h with
  | src h => exact h.one_parts rfl
  | @op tc g red c E E' _ _ _ ih => exact (getD_runAll [c] 0 c rfl).trans ih

theorem Top.single {p : Plan Row} {E : RowEq Row} (h : Top env .pre p E) : ∃ d, Legal false 1 p ⟨1, d, false, E⟩ := by
  induction h with
  | src h =>
    obtain ⟨P, l, h1, h2⟩ := h.single rfl
    rw [h2 rfl] at l
    exact ⟨_, l⟩
  | @op tc g red c E E' hg hr _ ih =>
    obtain ⟨d, l⟩ := ih
    refine ⟨none, .opSingle (Es := [E]) hg hr (by simp) rfl ?_⟩
    intro i c' E' z1 z2
    match i, z1, z2 with
    | 0, z1, z2 => cases z1; cases z2; exact l.forget

theorem Top.normalize (he : EnvOk env) {p : Plan Row} {E : RowEq Row} (h : Top env .pre p E) :
    ∀ p', normalize env p = .ok p' → Top env .mid p' E ∧ E.sub (Answer p') (Answer p) := by
  induction h with
  | src h =>
    intro p' hp
    obtain ⟨h1, h2⟩ := normalize_src he h rfl p' hp
    exact ⟨.src h1, h2⟩
  | @op tc g red c E E' hg hr _ ih =>
    intro p' hp
    obtain ⟨cs', h1, h2, h3⟩ := normalize_inv hp
    obtain ⟨c', rfl⟩ := one_of_length (by simpa using h1)
    rw [normalizeNode_other rfl] at h3; cases h3
    obtain ⟨c0, e1, e2⟩ := h2 0 c' rfl
    simp at e1; subst e1
    obtain ⟨i1, i2⟩ := ih c' e2
    exact ⟨.op hg hr i1, answer_sub1 (fun a b x e hx => hg [a] [b] x ⟨e, True.intro⟩ hx) i2⟩

theorem Top.broadcast {p : Plan Row} {E : RowEq Row} (h : Top env .mid p E) :
    Top env .post (insertBroadcast p) E ∧ Answer (insertBroadcast p) = Answer p := by
  induction h with
  | src h => exact ⟨.src (insertBroadcast_src h rfl).1, (insertBroadcast_src h rfl).2⟩
  | @op tc g red c E E' hg hr _ ih =>
    rw [insertBroadcast_plain rfl]
    exact ⟨.op hg hr ih.1, answer_unary ih.2⟩

theorem Top.ready (hb : env.broadcastJoins = false) {p : Plan Row} {E : RowEq Row} (h : Top env .mid p E) :
    Top env .post p E := by
  induction h with
  | src h => exact .src (h.ready rfl hb)
  | op hg hr _ ih => exact .op hg hr ih

theorem Top.isolate {p : Plan Row} {E : RowEq Row} (h : Top env .post p E) :
    ∀ p', isolateUnions p = .ok p' → Top env .post p' E ∧ Answer p' = Answer p := by
  induction h with
  | src h =>
    intro p' e
    obtain ⟨h1, h2⟩ := isolateUnions_src h rfl p' e
    exact ⟨.src h1, h2⟩
  | @op tc g red c E E' hg hr _ ih =>
    intro p' e
    obtain ⟨cs', l, hi, ⟨_, rfl⟩ | ⟨h, _⟩⟩ := isolateUnions_inv e
    · obtain ⟨c', rfl⟩ := one_of_length (by simpa using l)
      obtain ⟨c0, x1, x2⟩ := hi 0 c' rfl
      cases x1
      obtain ⟨i1, i2⟩ := ih c' x2
      exact ⟨.op hg hr i1, answer_unary i2⟩
    · cases h

/-! ### Placing the boundaries -/

/-- The stage at the top of a plan with boundaries: operators and joins above boundaries and scans of one partition. -/
inductive HeadStage : Plan Row → Prop where
  | net {k tc c} : k.isNet = true → HeadStage (.node k tc [c])
  | leaf {tc ps} : ps.length = 1 → HeadStage (.node (.leaf ps) tc [])
  | node {k tc cs} : k.isNet = false → (∀ ws m, k ≠ .ciu ws m) → cs ≠ [] → (∀ c ∈ cs, HeadStage c) →
      HeadStage (.node k tc cs)

theorem inject_gathers {p q : Plan Row} (hl : p.kind.isHead = true → p.children.length = 1)
    (h : inject env .gathers p = .ok q) : HeadStage q := by
  cases p with
  | node k tc cs =>
    obtain ⟨cs', d, h1, h2, h3⟩ := inject_inv h
    cases hf : k.fans with
    | true =>
      obtain ⟨l, _⟩ := injectAll_inv h1
      obtain ⟨c, t, k', _, rfl, hk, _⟩ := wrap_fans (D := True) (q := .node k (annotate env k d _) _) hf (by
        rw [show (Plan.node k (annotate env k d cs') cs').children.length = cs.length from l]
        exact hl (by cases k <;> first | rfl | cases hf)) h3
      exact .net hk
    | false =>
      obtain ⟨c, t, _, rfl⟩ := wrap_gathers (q := .node k (annotate env k d _) _) hf h3
      exact .net rfl

theorem HeadOk.inject {p : Plan Row} (h : HeadOk p) : ∀ {q}, inject env .other p = .ok q → HeadStage q := by
  have all : ∀ {k : Kind Row} {tc} {cs : List (Plan Row)} {q}, k.fans = false → k.asParent = .other → k.isNet = false →
      (∀ ws m, k ≠ .ciu ws m) → cs ≠ [] → (∀ c ∈ cs, ∀ {q}, DD.Tree.inject env .other c = .ok q → HeadStage q) →
      DD.Tree.inject env .other (.node k tc cs) = .ok q → HeadStage q := by
    intro k tc cs q hf hp hn hc hne ih h
    obtain ⟨cs', d, h1, h2, h3⟩ := inject_inv h
    rw [wrap_other (q := .node k (annotate env k d _) _) hf] at h3
    cases h3
    rw [hp] at h1
    obtain ⟨l, hi⟩ := injectAll_inv h1
    refine .node hn hc (by rintro rfl; exact hne (List.length_eq_zero_iff.mp l.symm)) fun c hm => ?_
    obtain ⟨i, hi', rfl⟩ := List.getElem_of_mem hm
    obtain ⟨c, x1, x2⟩ := hi i cs'[i] (by simp)
    exact ih c (List.mem_of_getElem? x1) x2
  induction h with
  | leaf h =>
    intro q e
    obtain ⟨cs', d, h1, h2, h3⟩ := inject_inv e
    cases h1
    rw [wrap_other rfl] at h3
    cases h3
    exact .leaf h
  | op hne _ ih => exact all rfl rfl rfl (by simp) hne ih
  | join hne _ ih => exact all rfl rfl rfl (by simp) hne ih
  | @ends k tc c hk hl =>
    intro q e
    obtain ⟨cs', d, h1, h2, h3⟩ := inject_inv e
    obtain ⟨l, hi⟩ := injectAll_inv h1
    obtain ⟨c', rfl⟩ := one_of_length (by simpa using l)
    cases hf : k.fans with
    | true =>
      obtain ⟨c, t, k', _, rfl, hk, _⟩ := wrap_fans (D := True) (q := .node k (annotate env k d _) _) hf rfl h3
      exact .net hk
    | false =>
      rw [wrap_other (q := .node k (annotate env k d _) _) hf] at h3
      cases h3
      have hg : k.asParent = .gathers := by cases k <;> simp_all [Kind.fans, Kind.endsStage, Kind.asParent]
      refine .node (by cases k <;> first | rfl | cases hk) (by rintro ws m rfl; cases hk) (by simp) fun x hx => ?_
      obtain ⟨c0, x1, x2⟩ := hi 0 c' rfl
      cases x1
      rw [hg] at x2
      cases List.mem_singleton.mp hx
      exact inject_gathers hl x2

/-! ### What the coordinator runs -/

theorem propagateEach_ok : ∀ {cs : List (Plan Row)} {t : TaskCount}, (∀ c ∈ cs, ∃ c', propagate env c t = .ok c') →
    ∃ cs', propagateEach env cs (cs.map fun _ => t) = .ok cs'
  | [], t, _ => ⟨[], by rw [propagateEach]⟩
  | c :: cs, t, h => by
    obtain ⟨c', e1⟩ := h c (by simp)
    obtain ⟨cs', e2⟩ := propagateEach_ok (cs := cs) (t := t) fun x hx => h x (by simp [hx])
    refine ⟨c' :: cs', ?_⟩
    rw [List.map_cons, propagateEach, e1]
    show (do let cs ← propagateEach env cs (cs.map fun _ => t); Except.ok (c' :: cs)) = _
    rw [e2]
    rfl

theorem HeadStage.one (hr : CoordinatorReads env) {q : Plan Row} (h : HeadStage q) :
    ∀ {t a}, 1 ≤ t.asUsize → propagate env q t = .ok a → ∃ b, propagate env q (.desired 1) = .ok b ∧ HeadEq b a := by
  induction h with
  | @net k tc c hk =>
    intro t a _ e
    rw [propagate_net hk] at e ⊢
    cases e
    exact ⟨_, rfl, .net hk⟩
  | @leaf tc ps hl =>
    intro t a ht e
    have key : ∀ t : TaskCount, 1 ≤ t.asUsize → ∃ k, propagate env (.node (.leaf ps) tc []) t = .ok (.node k t []) ∧ k.isNet = false
        ∧ ∀ t', SameHead (run (.node k t' [])) (run (.node (.leaf ps) tc [])) := by
      intro t ht
      have h := hr ps tc t.asUsize hl ht
      rw [propagate]
      case x_2 => intro _ _ e; cases e
      simp only [List.isEmpty_nil, if_true]
      cases hs : env.scale (.node (.leaf ps) tc []) t.asUsize with
      | none => exact ⟨_, rfl, rfl, fun t' => by rw [run_node, run_node]; exact .refl _⟩
      | some r =>
        rw [hs] at h
        cases r with
        | error e => exact absurd h id
        | ok p =>
          obtain ⟨h1, h2, h3, h4⟩ := h
          cases p with
          | node k tc' cs =>
            cases h1
            refine ⟨k, rfl, h2, fun t' => ?_⟩
            rw [run_node] at h3 h4 ⊢
            rw [run_node]
            exact ⟨h3.trans hl.symm, h4⟩
    obtain ⟨k, e1, e2, e3⟩ := key t ht
    obtain ⟨k', f1, f2, f3⟩ := key (.desired 1) (Nat.le_refl _)
    rw [e1] at e
    cases e
    exact ⟨_, f1, .leaf f2 e2 ⟨(f3 _).1.trans (e3 _).1.symm, fun q => ((f3 _).2 q).trans ((e3 _).2 q).symm⟩⟩
  | @node k tc cs hn hc hne _ ih =>
    intro t a ht e
    obtain ⟨cs', rfl, l, hi⟩ := propagate_inv hn hc hne e
    obtain ⟨cs1, e1⟩ := propagateEach_ok (env := env) (cs := cs) (t := .desired 1) (by
      intro c hm
      obtain ⟨i, hi', rfl⟩ := List.getElem_of_mem hm
      obtain ⟨c0, x1, x2⟩ := hi i (cs'[i]'(by omega)) (by simp)
      have : c0 = cs[i] := by simpa [hi'] using x1.symm
      subst this
      obtain ⟨b, hb, _⟩ := ih _ hm ht x2
      exact ⟨b, hb⟩)
    have e2 : propagate env (.node k tc cs) (.desired 1) = .ok (.node k (.desired 1) cs1) := by
      have hempty : cs.isEmpty = false := by cases cs <;> first | rfl | exact absurd rfl hne
      rw [propagate]
      · simp only [hempty, hn, Bool.false_eq_true, if_false]
        rw [e1]
        rfl
      · exact fun ws m e => hc ws m e
    obtain ⟨l1, hi1⟩ := propagateEach_inv (by simp) e1
    refine ⟨_, e2, .node hn hc (by rintro rfl; exact hne (List.length_eq_zero_iff.mp l1.symm)) (by omega) ?_⟩
    intro i b c x1 x2
    obtain ⟨c1, t1, y1, y2, y3⟩ := hi1 i b x1
    rw [List.getElem?_map, y1] at y2
    cases y2
    obtain ⟨c2, z1, z2⟩ := hi i c x2
    rw [y1] at z1
    cases z1
    obtain ⟨b', w1, w2⟩ := ih c1 (List.mem_of_getElem? y1) ht z2
    rw [y3] at w1
    cases w1
    exact w2

theorem Top.pos (he : EnvOk env) {p : Plan Row} {E : RowEq Row} (h : Top env .post p E) :
    ∀ {q}, inject env .other p = .ok q → 1 ≤ q.tc.asUsize := by
  induction h with
  | src h => intro q hq; exact (inject_src he h _ _ hq).other.pos
  | @op tc g red c E E' hg hr _ ih =>
    intro q hq
    obtain ⟨cs', d, h1, h2, h3⟩ := inject_inv hq
    rw [wrap_other rfl] at h3
    cases h3
    obtain ⟨l, hi⟩ := injectAll_inv h1
    obtain ⟨c', rfl⟩ := one_of_length (by simpa using l)
    obtain ⟨c0, x1, x2⟩ := hi 0 c' rfl
    cases x1
    exact (annotate_spec (k := .op g red) he (by simp) h2 (by simp) (by simpa using ih x2)).1

theorem Top.inject (he : EnvOk env) {p : Plan Row} {E : RowEq Row} (h : Top env .post p E) :
    ∀ {q}, inject env .other p = .ok q → ∀ {b}, propagate env q (.desired 1) = .ok b →
      ∃ d, Legal true 1 b ⟨1, d, false, E⟩ ∧ E.sub (Answer b) (Answer p) := by
  induction h with
  | src h =>
    intro q hq b hb
    have hj := (inject_src he h _ _ hq).other
    obtain ⟨P, l, _, ho, e⟩ := hj.legal (.desired 1) (allowed_one hj.pos) b hb
    rw [ho rfl] at l
    exact ⟨_, l, e⟩
  | @op tc g red c E E' hg hr _ ih =>
    intro q hq b hb
    obtain ⟨cs', d, h1, h2, h3⟩ := inject_inv hq
    rw [wrap_other rfl] at h3
    cases h3
    obtain ⟨l, hi⟩ := injectAll_inv h1
    obtain ⟨c', rfl⟩ := one_of_length (by simpa using l)
    obtain ⟨c0, x1, x2⟩ := hi 0 c' rfl
    cases x1
    obtain ⟨cs1, rfl, l1, hi1⟩ := propagate_inv rfl (by simp) (by simp) hb
    obtain ⟨c1, rfl⟩ := one_of_length (by simpa using l1)
    obtain ⟨c0, y1, y2⟩ := hi1 0 c1 rfl
    cases y1
    obtain ⟨d, l, e⟩ := ih x2 y2
    refine ⟨none, .opSingle (Es := [E]) hg hr (by simp) rfl ?_, answer_sub1 (fun a b x e hx => hg [a] [b] x ⟨e, True.intro⟩ hx) e⟩
    intro i c' E' z1 z2
    match i, z1, z2 with
    | 0, z1, z2 => cases z1; cases z2; exact l.forget

/-- Placing boundaries in a plan with one partition. -/
theorem root_head (he : EnvOk env) (hr : CoordinatorReads env) {p r : Plan Row} {E : RowEq Row} (h : Top env .post p E)
    (hh : HeadOk p) (hq : inject env .root p = .ok r) :
    ∃ b d, Legal true 1 b ⟨1, d, false, E⟩ ∧ E.sub (Answer b) (Answer p) ∧ HeadEq b r := by
  cases p with
  | node k tc cs =>
    obtain ⟨cs', d, h1, h2, h3⟩ := inject_inv hq
    cases hf : k.fans with
    | true =>
      cases h with
      | op => cases hf
      | src h =>
        have hi := inject_src he h _ _ hq
        unfold Injected at hi
        rw [if_pos (show (Plan.node k tc cs).kind.fans = true from hf)] at hi
        have hl : cs'.length = 1 := by
          rw [(injectAll_inv h1).1]
          cases hh with
          | ends => rfl
          | _ => cases hf
        obtain ⟨c, t, k', _, rfl, hk, _⟩ := wrap_fans (D := True) (q := .node k (annotate env k d _) _) hf hl h3
        obtain ⟨P, l, _, ho, e⟩ := hi.legal (.desired 1) (allowed_one hi.pos) _ (propagate_net hk)
        rw [ho rfl] at l
        exact ⟨_, _, l, e, .net hk⟩
    | false =>
      rw [wrap_root (q := .node k (annotate env k d _) _) hf] at h3
      have ho : inject env .other (.node k tc cs) = .ok (.node k (annotate env k d cs') cs') := by
        rw [inject, h1]
        show (do let d ← env.desired (.node k tc cs); wrap env .other (.node k tc cs) (.node k (annotate env k d cs') cs')) = _
        rw [h2]
        exact wrap_other (q := .node k (annotate env k d _) _) hf
      obtain ⟨b, e1, e2⟩ := (hh.inject ho).one hr (h.pos he ho) h3
      obtain ⟨d, l, e⟩ := h.inject he ho e1
      exact ⟨b, d, l, e, e2⟩

/-- The plan with its boundaries placed is, for the coordinator, like a plan that is legal in one task and means the same. -/
theorem injected_head (he : EnvOk env) (hr : CoordinatorReads env) {p q r : Plan Row} {E : RowEq Row}
    (hroot : AnyRoot env p E) (hq : preparePlan env p = .ok q) (h4 : inject env .root q = .ok r) :
    ∃ b d, Legal true 1 b ⟨1, d, false, E⟩ ∧ E.sub (Answer b) (Answer p) ∧ HeadEq b r := by
  unfold preparePlan at hq
  obtain ⟨p1, h1, h2⟩ := bind_ok hq
  replace h2 : (if env.isolateUnions = true then isolateUnions (if env.broadcastJoins = true then
    insertBroadcast (if p1.parts > 1 then fresh (.coalesce none) [p1] else p1)
    else if p1.parts > 1 then fresh (.coalesce none) [p1] else p1) else .ok (if env.broadcastJoins = true then
    insertBroadcast (if p1.parts > 1 then fresh (.coalesce none) [p1] else p1)
    else if p1.parts > 1 then fresh (.coalesce none) [p1] else p1)) = .ok q := h2
  generalize h3 : (if env.broadcastJoins = true then
    insertBroadcast (if p1.parts > 1 then fresh (.coalesce none) [p1] else p1)
    else if p1.parts > 1 then fresh (.coalesce none) [p1] else p1) = p2 at h2
  have hx : ∃ x, x = (if p1.parts > 1 then fresh (.coalesce none) [p1] else p1) ∧ Top env .mid x E
      ∧ E.sub (Answer x) (Answer p) ∧ HeadOk x := by
    rcases hroot with ⟨d, one, ga, hs, hroot⟩ | ⟨ht, hh⟩
    · obtain ⟨n1, n2⟩ := normalize_src he hs rfl p1 h1
      obtain ⟨hparts, hd, hl⟩ := hroot p1 h1
      refine ⟨_, rfl, ?_, ?_, ?_⟩ <;> rw [if_pos hparts]
      · exact .src (.gather (ga' := false) (.inl rfl) hd (fun h => by cases h) (fun hr => by cases hr) n1)
      · rw [show Answer (fresh (.coalesce none) [p1]) = Answer p1 from answer_pass (fun _ _ => Iff.rfl) _ _ _]
        exact n2
      · exact .ends rfl hl
    · obtain ⟨n1, n2⟩ := ht.normalize he p1 h1
      have hparts := n1.parts
      refine ⟨_, rfl, ?_, ?_, ?_⟩ <;> rw [if_neg (by omega)]
      · exact n1
      · exact n2
      · exact hh p1 h1
  obtain ⟨x, hx1, hx2, hx3, hx4⟩ := hx
  have hb : Top env .post p2 E ∧ Answer p2 = Answer x ∧ HeadOk p2 := by
    rw [← h3, ← hx1]
    cases hbj : env.broadcastJoins with
    | true => exact ⟨hx2.broadcast.1, hx2.broadcast.2, hx4.insertBroadcast⟩
    | false => exact ⟨hx2.ready hbj, rfl, hx4⟩
  have hi : Top env .post q E ∧ Answer q = Answer p2 ∧ HeadOk q := by
    cases hiu : env.isolateUnions with
    | true =>
      rw [hiu] at h2
      exact ⟨(hb.1.isolate q h2).1, (hb.1.isolate q h2).2, hb.2.2.isolateUnions h2⟩
    | false => rw [hiu] at h2; cases h2; exact ⟨hb.1, rfl, hb.2.2⟩
  obtain ⟨b, d, l, e, hbr⟩ := root_head he hr hi.1 hi.2.2 h4
  rw [hi.2.1, hb.2.1] at e
  exact ⟨b, d, l, RowEq.sub_trans e hx3, hbr⟩

/-- The same for the result of planning. -/
theorem plan_head (he : EnvOk env) (hr : CoordinatorReads env) {p p' : Plan Row} {E : RowEq Row}
    (hroot : AnyRoot env p E) (hp : plan env p = .ok (some p')) :
    ∃ d b, Legal false 1 b ⟨1, d, false, E⟩ ∧ E.sub (Answer b) (Answer p) ∧ HeadEq b p' := by
  unfold plan at hp
  obtain ⟨q, hq, hp⟩ := bind_ok hp
  obtain ⟨r, h4, hp⟩ := bind_ok hp
  obtain ⟨⟨q', id⟩, h5, hp⟩ := bind_ok hp
  obtain ⟨b, d, l, e, hbr⟩ := injected_head he hr hroot hq h4
  obtain ⟨b', id', l1, l2, l3⟩ := l.prepare (keep := false) Nat.one_pos 1
  rw [← l3] at e
  obtain ⟨r', g1, g2⟩ := prepare_headEq hbr l1
  rw [h5] at g1
  obtain ⟨rfl, -⟩ := Prod.mk.inj (Except.ok.inj g1)
  simp only at hp
  cases hn : hasNet q' with
  | false => rw [hn] at hp; cases hp
  | true =>
    rw [hn] at hp
    have h6 := Option.some.inj (Except.ok.inj hp)
    subst h6
    cases env.partialReduce with
    | false => exact ⟨_, _, l2, e, g2⟩
    | true =>
      obtain ⟨r1, r2⟩ := l2.partialReduce Nat.one_pos
      exact ⟨_, _, r1, RowEq.sub_trans r2 e, partialReduce_headEq g2⟩

/-- **C08** for plans whose root is not gathered. The planner then annotates the head stage with several tasks, but the
coordinator runs it as one. If the scale-up handlers leave to the coordinator the original scans (`CoordinatorReads`, as
`DistributedLeafExec` does), what the coordinator returns is one of the answers of the plan.

Together with `C08_distributed_is_an_answer_partial` this leaves, of the roots: those that are round-robin repartitionings
(`C08_round_robin_below_coalesce_false`), and those with one partition made by a round-robin repartitioning
or a union of one input (`C08_repartitioned_root_false`). -/
theorem C08_ungathered_root_partial (he : EnvOk env) (hr : CoordinatorReads env) {p p' : Plan Row}
    (hroot : AnyRoot env p .perm) (hp : plan env p = .ok (some p')) :
    p'.parts = 1 ∧ ∃ d, Answer p d ∧ (distributed p').Perm d := by
  obtain ⟨_, b, l, e, hb⟩ := plan_head he hr hroot hp
  obtain ⟨h1, d, hd, e1⟩ := l.distributed
  obtain ⟨d', hd', e2⟩ := e d hd
  obtain ⟨s1, s2⟩ := hb.same
  refine ⟨s1.symm.trans h1, d', hd', ?_⟩
  have : distributed p' = distributed b := (s2 0).symm
  rw [this]
  exact List.Perm.trans e1 e2

/-- **C08** What such a plan returns on a single node is one of its answers; so if it has only one answer, the coordinator
returns the rows the plan returns on a single node. -/
theorem C08_ungathered_root_eq_single_node_partial (he : EnvOk env) (hr : CoordinatorReads env) {p p' : Plan Row}
    (hroot : AnyRoot env p .perm) (hone : OneAnswer p) (hp : plan env p = .ok (some p')) :
    p'.parts = 1 ∧ (distributed p').Perm (singleNode p) := by
  obtain ⟨h1, d, hd, e⟩ := C08_ungathered_root_partial he hr hroot hp
  obtain ⟨d', hd', e'⟩ : ∃ d, Answer p d ∧ (singleNode p).Perm d := by
    rcases hroot with ⟨_, _, _, hs, _⟩ | ⟨ht, _⟩
    · exact C08_single_node_is_an_answer hs rfl rfl
    · obtain ⟨_, l⟩ := ht.single
      obtain ⟨_, d, hd, e⟩ := l.rows_one false
      exact ⟨d, hd, e⟩
  exact ⟨h1, (e.trans (hone d d' hd hd')).trans e'.symm⟩

/-! ### With task counts chosen while the query runs -/

theorem sample_headEq {p q : Plan Row} (h : HeadEq p q) : HeadEq (sample p) (sample q) := by
  induction h with
  | @net k tc tc' cs hk => rw [sample, sample]; exact .net hk
  | leaf h1 h2 h =>
    rw [sample, sample]
    simp only [sampleAll, h1, h2]
    exact .leaf h1 h2 h
  | @node k tc tc' cs cs' hn hc hne hl _ ih =>
    have e : ∀ cs : List (Plan Row), sampleAll cs = cs.map sample := by
      intro cs
      induction cs with
      | nil => rfl
      | cons c cs ih => rw [sampleAll, ih]; rfl
    rw [sample, sample, e, e]
    simp only [hn, Bool.false_eq_true, if_false]
    refine .node hn hc (by simpa using hne) (by simpa using hl) fun i c c' x1 x2 => ?_
    obtain ⟨x, y1, rfl⟩ := map_getElem? x1
    obtain ⟨y, y2, rfl⟩ := map_getElem? x2
    exact ih i x y y1 y2
  | refl => exact .refl

theorem AnyRoot.costing {p : Plan Row} {E : RowEq Row} (cpu b) (h : AnyRoot env p E) : AnyRoot (env.costing cpu b) p E := by
  have ht : ∀ {p E}, Top env .pre p E → Top (env.costing cpu b) .pre p E := by
    intro p E h
    induction h with
    | src h => exact .src (h.costing cpu b)
    | op hg hr _ ih => exact .op hg hr ih
  unfold AnyRoot
  rw [normalize_costing]
  rcases h with ⟨d, one, ga, h1, h2⟩ | ⟨h1, h2⟩
  · exact .inl ⟨d, one, ga, h1.costing cpu b, h2⟩
  · exact .inr ⟨ht h1, h2⟩

/-- **C58** for plans whose root is not gathered, as `C08_ungathered_root_partial`: whatever the stages cost. -/
theorem C58_ungathered_root_partial (he : EnvOk env) (hr : CoordinatorReads env) {p p' : Plan Row}
    (hroot : AnyRoot env p .perm) (cpu : Plan Row → Plan Row → Except Err (Option Nat)) (bytes : Nat)
    (hp : dynamicPlan (env.costing cpu bytes) p = .ok p') :
    p'.parts = 1 ∧ ∃ d, Answer p d ∧ (distributed p').Perm d := by
  obtain ⟨p1, p2, id, h1, h2, h3⟩ := dynamic_steps hp
  obtain ⟨b, d, l, e, hb⟩ := injected_head (env := env.costing cpu bytes) (he.costing cpu bytes) hr (hroot.costing cpu bytes) h1 h2
  obtain ⟨b', id', l1, l2, l3⟩ := (l.sample rfl).prepare (keep := true) Nat.one_pos 1
  obtain ⟨r', g1, g2⟩ := prepare_headEq (sample_headEq hb) l1
  rw [h3] at g1
  obtain ⟨rfl, -⟩ := Prod.mk.inj (Except.ok.inj g1)
  rw [← answer_sample, ← l3] at e
  obtain ⟨s1, s2⟩ := g2.same
  obtain ⟨h1, d, hd, e1⟩ := l2.distributed
  obtain ⟨d', hd', e2⟩ := e d hd
  refine ⟨s1.symm.trans h1, d', hd', ?_⟩
  have : distributed p' = distributed b' := (s2 0).symm
  rw [this]
  exact List.Perm.trans e1 e2

namespace Demo

theorem sess_reads : CoordinatorReads sess := by
  intro ps tc T h hT
  refine ⟨rfl, rfl, ?_, fun q => rfl⟩
  rw [run_node]
  show ((scaled ps T).headD []).length = 1
  obtain ⟨T, rfl⟩ : ∃ n, T = n + 1 := ⟨T - 1, by omega⟩
  simp [scaled, List.range_succ_eq_map, h]

/-- `SELECT SUM(x) FROM small JOIN b`, where `b` has one partition: the aggregation is done by one node, nothing is gathered. -/
def sumOfJoin : Plan (Nat × Nat) :=
  fresh sumSingle [fresh keep [fresh (.join .collect (onFirst .inner)) [fresh (.coalesce none) [small], one]]]

theorem sumOfJoin_top : Top sess .pre sumOfJoin .perm := by
  refine .op (E := .perm) ?_ (by rintro r ⟨⟩) (.src (d := none) (ga := false) ?_)
  · refine .of_fn ?_
    intro as bs h
    obtain ⟨a, b, rfl, rfl, e⟩ := SameInputs.one h
    show ([sumAll.fin (sumAll.total sumAll.lift a)] : List (Nat × Nat)).Perm [sumAll.fin (sumAll.total sumAll.lift b)]
    rw [sumAll.total_perm _ e]
  · refine .opLocal (d := none) keep_hom (by rintro r ⟨⟩) (by rintro _ _ ⟨⟩) ?_
    refine .joinSafe (oneB := true) (repB := false) (d := none) (gaB := true) (by simp) rfl rfl (by rintro _ _ ⟨⟩)
      (by intro _ g e; cases e) (by simp) (by simp) (by simp) ?_ (leaf_src _ _ (by simp) (by simp))
    exact .gather (.inl rfl) (by rintro _ _ ⟨⟩) (fun _ => ⟨by rintro _ _ _ ⟨⟩, by rintro _ ⟨⟩⟩) (by simp)
      (leaf_src _ false (by simp) (by simp))

theorem sumOfJoin_head : HeadOk sumOfJoin := by
  refine .op (by simp) ?_
  simp only [List.mem_cons, List.not_mem_nil, or_false, forall_eq]
  refine .op (by simp) ?_
  simp only [List.mem_cons, List.not_mem_nil, or_false, forall_eq]
  refine .join (by simp) ?_
  simp only [List.mem_cons, List.not_mem_nil, or_false, forall_eq_or_imp, forall_eq]
  exact ⟨.ends rfl (fun h => by cases h), .leaf rfl⟩

/-- One partition again, from a union. -/
def dealtUnion : Plan (Nat × Nat) := fresh (roundRobin 1) [fresh .union [input, input]]

end Demo

/-- Non-vacuity: the head stage of this query is planned with three tasks and returns the sum of all rows. -/
example : ∃ p', plan Demo.sess Demo.sumOfJoin = .ok (some p') ∧ p'.tc.asUsize = 3
    ∧ ∃ d, Answer Demo.sumOfJoin d ∧ (distributed p').Perm d := by
  have h : (match plan Demo.sess Demo.sumOfJoin with | .ok (some p') => p'.tc.asUsize == 3 | _ => false) = true := by
    decide +kernel
  split at h
  · rename_i p' hp
    refine ⟨p', hp, by simpa using h, (C08_ungathered_root_partial Demo.sess_ok Demo.sess_reads
      (.inr ⟨Demo.sumOfJoin_top, fun p1 h1 => ?_⟩) hp).2⟩
    have e : normalize Demo.sess Demo.sumOfJoin = .ok Demo.sumOfJoin := by rfl
    rw [e] at h1; cases h1
    exact Demo.sumOfJoin_head
  · cases h

example : ∃ p', dynamicPlan (Demo.sess.costing (fun _ _ => .ok (some 100)) 10) Demo.sumOfJoin = .ok p'
    ∧ ∃ d, Answer Demo.sumOfJoin d ∧ (distributed p').Perm d := by
  have h : (dynamicPlan (Demo.sess.costing (fun _ _ => .ok (some 100)) 10) Demo.sumOfJoin).toBool = true := by
    decide +kernel
  cases hp : dynamicPlan (Demo.sess.costing (fun _ _ => .ok (some 100)) 10) Demo.sumOfJoin with
  | error e => rw [hp] at h; cases h
  | ok p' =>
    refine ⟨p', rfl, (C58_ungathered_root_partial Demo.sess_ok Demo.sess_reads
      (.inr ⟨Demo.sumOfJoin_top, fun p1 h1 => ?_⟩) _ _ hp).2⟩
    have e : normalize Demo.sess Demo.sumOfJoin = .ok Demo.sumOfJoin := by rfl
    rw [e] at h1; cases h1
    exact Demo.sumOfJoin_head

/-- **C08 is false** if a round-robin repartitioning makes the only partition of an ungathered root, from a union: the coordinator
runs the first task of the isolated union only. -/
theorem C08_repartitioned_root_false :
    singleNode Demo.dealtUnion = [(1, 11), (1, 13), (2, 22), (2, 25), (1, 18), (1, 11), (1, 13), (2, 22), (2, 25), (1, 18)]
    ∧ result Demo.sess Demo.dealtUnion = some [(2, 22), (2, 25)] := by
  decide +kernel

end DD.Tree
