/-
The planning passes keep the order plans promise.
-/
import Verif.Lemmas.Order
import Verif.Lemmas.PlanShapeInject

namespace DD.Tree

variable {Row : Type} {env : Env Row} {one : Bool}

/-- The rewritten plan promises what the plan promises. -/
def Keeps (p p' : Plan Row) : Prop := ∀ o, Ordered false p o → Ordered false p' o

theorem Keeps.refl (p : Plan Row) : Keeps p p := fun _ h => h

theorem Keeps.trans {p q r : Plan Row} (h : Keeps p q) (h' : Keeps q r) : Keeps p r := fun o ho => h' o (h o ho)

/-- Rewriting the children. -/
theorem keeps_kids {k : Kind Row} {tc tc' : TaskCount} {cs cs' : List (Plan Row)}
    (h : ∀ (i : Nat) c', cs'[i]? = some c' → ∃ c, cs[i]? = some c ∧ Keeps c c') : Keeps (.node k tc cs) (.node k tc' cs') := by
  intro o ho
  obtain ⟨a, h1, h2, h3⟩ := ho.inv
  refine .node a ?_ h2 h3
  intro i c' e
  obtain ⟨c, e', hc⟩ := h i c' e
  exact hc _ (h1 i c e')

theorem keeps_map {k : Kind Row} {tc tc' : TaskCount} {cs : List (Plan Row)} {f : Plan Row → Plan Row}
    (h : ∀ c ∈ cs, Keeps c (f c)) : Keeps (.node k tc cs) (.node k tc' (cs.map f)) := by
  apply keeps_kids
  intro i c' e
  rw [List.getElem?_map] at e
  cases hi : cs[i]? with
  | none => rw [hi] at e; cases e
  | some c => rw [hi] at e; cases e; exact ⟨c, rfl, h c (List.mem_of_getElem? hi)⟩

/-- Nodes without a promise of their own. -/
theorem ordered_any {k : Kind Row} {tc cs} (a : Nat → Option (Row → Row → Bool)) (h : ∀ (i : Nat) c, cs[i]? = some c → Ordered one c (a i))
    (hr : Reads k a) : Ordered one (.node k tc cs) none := .node a h hr (by rintro _ ⟨⟩)

theorem ordered_one {k : Kind Row} {tc c} (h : Ordered one c none) (hr : Reads k fun _ => none) : Ordered one (.node k tc [c]) none := by
  refine ordered_any (fun _ => none) ?_ hr
  intro i c' e
  match i with
  | 0 => cases e; exact h
  | i + 1 => simp at e

/-! ### Before the boundaries are placed -/

theorem stripCoalesce_ordered {p : Plan Row} {o} (h : Ordered one p o) : Ordered one (stripCoalesce p) none := by
  unfold stripCoalesce
  split
  · obtain ⟨a, h1, _, _⟩ := h.inv
    exact (h1 0 _ rfl).weaken
  · exact h.weaken

theorem normalize_keeps : ∀ {p p' : Plan Row}, normalize env p = .ok p' → Keeps p p'
  | .node k tc cs, p', h => by
    obtain ⟨cs', hl, hcs, hn⟩ := normalize_inv h
    have hk : Keeps (.node k tc cs) (.node k tc cs') := by
      apply keeps_kids
      intro i c' e
      obtain ⟨c, e1, e2⟩ := hcs i c' e
      have : sizeOf c < sizeOf cs := List.sizeOf_lt_of_mem (List.mem_of_getElem? e1)
      exact ⟨c, e1, normalize_keeps e2⟩
    intro o ho
    have ho' := hk o ho
    obtain ⟨a, h1, h2, h3⟩ := ho'.inv
    unfold normalizeNode at hn
    split at hn
    · split at hn
      · rename_i s l r hc
        split at hn
        · cases hn
        · cases hn
          have ho : o = none := by
            cases o with
            | none => rfl
            | some le =>
              have := (h3 le rfl).1
              simp [JoinSpec.safe] at this
              simp [this.1] at hc
          subst ho
          refine ordered_any (fun _ => none) ?_ True.intro
          intro i c' e
          match i with
          | 0 => cases e; exact ordered_one (stripCoalesce_ordered (h1 0 _ rfl)) (by rintro _ ⟨⟩)
          | 1 => cases e; exact ordered_one (h1 1 _ rfl).weaken (by rintro _ ⟨⟩)
          | i + 2 => simp at e
      · cases hn; exact ho'
    · split at hn
      · rename_i s l r hc
        cases hn
        have ho : o = none := by
          cases o with
          | none => rfl
          | some le =>
            have := (h3 le rfl).1
            simp [JoinSpec.safe] at this
            simp [this.1] at hc
        subst ho
        refine ordered_any (fun _ => none) ?_ True.intro
        intro i c' e
        match i with
        | 0 => cases e; exact (h1 1 _ rfl).weaken
        | 1 => cases e; exact stripCoalesce_ordered (h1 0 _ rfl)
        | i + 2 => simp at e
      · cases hn; exact ho'
    · cases hn; exact ho'
termination_by p => sizeOf p

theorem broadcastBuild_ordered {p : Plan Row} {o} (h : Ordered one p o) : Ordered one (broadcastBuild p) none := by
  unfold broadcastBuild
  split
  · obtain ⟨a, h1, h2, _⟩ := h.inv
    exact ordered_one (ordered_one (h1 0 _ rfl).weaken True.intro) h2
  · exact ordered_one (ordered_one h.weaken True.intro) (by rintro _ ⟨⟩)

theorem insertBroadcast_keeps : ∀ p : Plan Row, Keeps p (insertBroadcast p)
  | .node k tc cs => by
    have hk : Keeps (.node k tc cs) (.node k tc (cs.map insertBroadcast)) := by
      apply keeps_map
      intro c hc
      have : sizeOf c < sizeOf cs := List.sizeOf_lt_of_mem hc
      exact insertBroadcast_keeps c
    rw [insertBroadcast, insertBroadcastAll_eq]
    intro o ho
    have ho' := hk o ho
    revert ho'
    cases cs.map insertBroadcast with
    | nil => exact fun h => h
    | cons b rest =>
      intro ho'
      show Ordered false (.node k tc (if canBroadcast k then broadcastBuild b :: rest else b :: rest)) o
      cases hb : canBroadcast k with
      | false => exact ho'
      | true =>
        rw [if_pos rfl]
        obtain ⟨a, h1, h2, h3⟩ := ho'.inv
        cases k <;> simp only [canBroadcast, Bool.false_eq_true] at hb
        rename_i m s
        refine .node (fun i => if i = 0 then none else a i) ?_ True.intro ?_
        · intro i c e
          match i with
          | 0 => cases e; exact broadcastBuild_ordered (h1 0 _ rfl)
          | i + 1 => rw [if_neg (by omega)]; exact h1 (i + 1) c e
        · intro le e
          exact h3 le e

theorem isolateUnions_keeps : ∀ {p p' : Plan Row}, isolateUnions p = .ok p' → Keeps p p'
  | .node k tc cs, p', h => by
    obtain ⟨cs', hl, hcs, hn⟩ := isolateUnions_inv h
    have hk : Keeps (.node k tc cs) (.node k tc cs') := by
      apply keeps_kids
      intro i c' e
      obtain ⟨c, e1, e2⟩ := hcs i c' e
      have : sizeOf c < sizeOf cs := List.sizeOf_lt_of_mem (List.mem_of_getElem? e1)
      exact ⟨c, e1, isolateUnions_keeps e2⟩
    rcases hn with ⟨_, rfl⟩ | ⟨rfl, ws, m, rfl⟩
    · exact hk
    · intro o ho
      obtain ⟨a, h1, _, h3⟩ := (hk o ho).inv
      exact .node a h1 True.intro h3
termination_by p => sizeOf p

/-! ### Placing the boundaries -/

theorem withTc_keeps (p : Plan Row) (t : TaskCount) : Keeps p (p.withTc t) := by
  cases p with
  | node k tc cs => exact fun o h => by obtain ⟨a, h1, h2, h3⟩ := h.inv; exact .node a h1 h2 h3

theorem propagate_keeps (hs : ScaleKeepsOrder env) : ∀ {q q' : Plan Row} {t}, propagate env q t = .ok q' → Keeps q q'
  | .node k tc cs, q', t, h => by
    by_cases hne : cs = []
    · subst hne
      have h' : (match env.scale (.node k tc []) t.asUsize with
          | none => Except.ok (Plan.node k t [])
          | some (.error e) => .error e
          | some (.ok p) => .ok (p.withTc t)) = .ok q' := by
        rw [propagate.eq_def] at h
        simp only [List.isEmpty_nil, if_true] at h
        exact h
      split at h'
      · cases h'
        exact withTc_keeps (.node k tc []) t
      · cases h'
      · rename_i p e
        cases h'
        intro o ho
        exact withTc_keeps p t o (hs _ _ _ _ o ho e)
    · have hch : ∀ cs' : List (Plan Row), (∀ (i : Nat) c', cs'[i]? = some c' → ∃ c t, cs[i]? = some c ∧ propagate env c t = .ok c') →
          Keeps (.node k tc cs) (.node k t cs') := by
        intro cs' hall
        apply keeps_kids
        intro i c' e
        obtain ⟨c, t, e1, e2⟩ := hall i c' e
        have : sizeOf c < sizeOf cs := List.sizeOf_lt_of_mem (List.mem_of_getElem? e1)
        exact ⟨c, e1, propagate_keeps hs e2⟩
      cases hk : k.isNet with
      | true =>
        rw [propagate.eq_def] at h
        simp only [List.isEmpty_iff, if_neg hne, hk, if_true] at h
        cases h
        exact withTc_keeps (.node k tc cs) t
      | false =>
        by_cases hciu : ∃ ws m, k = .ciu ws m
        · obtain ⟨ws, m, rfl⟩ := hciu
          obtain ⟨ws', m', cs'', kk, rfl, l, _, _, hall⟩ := propagate_ciu hne h
          intro o ho
          obtain ⟨a, h1, _, h3⟩ := (hch cs'' (fun i c' hc' => by
            obtain ⟨c, x1, _, _, x3⟩ := hall i c' hc'
            exact ⟨c, _, x1, x3⟩) o ho).inv
          exact .node a h1 True.intro h3
        · obtain ⟨cs'', rfl, l, hall⟩ := propagate_inv hk (fun ws m e => hciu ⟨ws, m, e⟩) hne h
          exact hch cs'' fun i c' hc' => by
            obtain ⟨c, x1, x3⟩ := hall i c' hc'
            exact ⟨c, _, x1, x3⟩
termination_by q => sizeOf q

theorem build_keeps (hs : ScaleKeepsOrder env) {o q c : Plan Row} {t} (h : build env o q = .ok (c, t)) : Keeps q c := by
  unfold build at h
  obtain ⟨t', _, h⟩ := bind_ok h
  obtain ⟨c', h1, h⟩ := bind_ok h
  cases h
  exact propagate_keeps hs h1

theorem wrap_keeps (hs : ScaleKeepsOrder env) {par : Parent} {x q r : Plan Row} (h : wrap env par x q = .ok r) : Keeps q r := by
  intro o ho
  have hnone : q.kind.isHead = true → o = none := by
    intro hk
    cases o with
    | none => rfl
    | some le => have := ho.not_head; rw [hk] at this; cases this
  unfold wrap at h
  split at h
  · rename_i e
    obtain rfl := hnone (by rw [e]; rfl)
    obtain ⟨⟨c, t⟩, h1, h⟩ := bind_ok h
    cases h
    exact ordered_one (build_keeps hs h1 _ ho) True.intro
  · rename_i e
    obtain rfl := hnone (by rw [e]; rfl)
    obtain ⟨⟨c, t⟩, h1, h⟩ := bind_ok h
    cases h
    exact ordered_one (build_keeps hs h1 _ ho) True.intro
  · obtain ⟨⟨c, t⟩, h1, h⟩ := bind_ok h
    obtain ⟨e, _, h⟩ := bind_ok h
    cases h
    refine .node (fun _ => o) ?_ True.intro ?_
    · intro i c' e
      match i with
      | 0 => cases e; exact build_keeps hs h1 _ ho
      | i + 1 => simp at e
    · intro le e
      exact ⟨rfl, e⟩
  · exact propagate_keeps hs h _ ho
  · cases h; exact ho

theorem inject_keeps (hs : ScaleKeepsOrder env) : ∀ {p q : Plan Row} {par}, inject env par p = .ok q → Keeps p q
  | .node k tc cs, q, par, h => by
    obtain ⟨cs', d, h1, _, h3⟩ := inject_inv h
    refine Keeps.trans ?_ (wrap_keeps hs h3)
    apply keeps_kids
    intro i c' e
    obtain ⟨c, e1, e2⟩ := (injectAll_inv h1).2 i c' e
    have : sizeOf c < sizeOf cs := List.sizeOf_lt_of_mem (List.mem_of_getElem? e1)
    exact ⟨c, e1, inject_keeps hs e2⟩
termination_by p => sizeOf p

/-! ### Preparing them -/

theorem prepareNode_keeps {keep : Bool} {k : Kind Row} {tc} {cs : List (Plan Row)} {t id p' id'}
    (h : prepareNode keep (.node k tc cs) t id = .ok (p', id')) : Keeps (.node k tc cs) p' := by
  intro o ho
  rcases prepareNode_inv h with ⟨_, rfl, _⟩ | ⟨c, rest, rfl, hk, ⟨_, _, _, rfl, _⟩ | ⟨_, c', h1, rfl, _⟩⟩
  · exact ho
  · obtain ⟨a, h1, _, h3⟩ := ho.inv
    have hc := h1 0 _ rfl
    cases o with
    | none => exact hc.weaken
    | some le =>
      have := h3 le rfl
      cases k <;> first | (cases hk; done) | (exact this.elim) | (rw [this.2] at hc; exact hc)
  · obtain ⟨a, a1, _, a3⟩ := ho.inv
    have hc := a1 0 _ rfl
    have hstrip : Ordered false (strip c) (a 0) := hc.strip fun hh => by
      cases ha : a 0 with
      | none => rfl
      | some le => rw [ha] at hc; have := hc.not_head; rw [hh] at this; cases this
    cases k <;> first | (cases hk; done) | skip
    · -- shuffle
      have ho : o = none := by
        cases o with
        | none => rfl
        | some le => exact (a3 le rfl).elim
      subst ho
      cases h1
      exact ordered_one (ordered_one hstrip.weaken (by rintro _ ⟨⟩)) True.intro
    · cases h1
      refine .node a ?_ True.intro a3
      intro i c' e
      match i with
      | 0 => cases e; exact hstrip
      | i + 1 => simp at e
    · have ho : o = none := by
        cases o with
        | none => rfl
        | some le => exact (a3 le rfl).elim
      subst ho
      obtain ⟨b, _, h1⟩ := bind_ok h1
      cases h1
      exact ordered_one (ordered_one hstrip.weaken True.intro) True.intro

theorem prepare_keeps {keep : Bool} : ∀ {p p' : Plan Row} {t id id'}, prepare keep p t id = .ok (p', id') → Keeps p p'
  | .node k tc cs, p', t, id, id', h => by
    obtain ⟨cs', id1, _, _, hcs, hn⟩ := prepare_inv h
    refine Keeps.trans ?_ (prepareNode_keeps hn)
    apply keeps_kids
    intro i c' e
    obtain ⟨c, a, b, e1, e2⟩ := hcs i c' e
    have : sizeOf c < sizeOf cs := List.sizeOf_lt_of_mem (List.mem_of_getElem? e1)
    exact ⟨c, e1, prepare_keeps e2⟩
termination_by p => sizeOf p

/-! ### Afterwards -/

theorem reduceNode_keeps (k : Kind Row) (tc : TaskCount) (cs : List (Plan Row)) : Keeps (.node k tc cs) (reduceNode k tc cs) := by
  intro o ho
  unfold reduceNode
  split
  · rename_i h n o' rt g r ot ys hk
    obtain ⟨a, a1, _, a3⟩ := ho.inv
    have hc := a1 0 _ rfl
    have ha : a 0 = none := by
      cases ha : a 0 with
      | none => rfl
      | some le => rw [ha] at hc; have := hc.not_head; cases this
    have ho' : o = none := by
      cases o with
      | none => rfl
      | some le =>
        have := a3 le rfl
        cases k <;> first | (cases hk; done) | (exact this.elim) | (have e := this.2; rw [ha] at e; cases e)
    subst ho'
    rw [ha] at hc
    obtain ⟨b, b1, _, _⟩ := hc.inv
    obtain ⟨_, _, d2, _⟩ := (b1 0 _ rfl).inv
    refine ordered_one (ordered_one hc ⟨fun i => .inl (d2.2 r rfl i), by rintro _ ⟨⟩⟩) ?_
    cases k <;> first | (cases hk; done) | (exact True.intro)
  · exact ho

theorem partialReduce_keeps : ∀ p : Plan Row, Keeps p (partialReduce p)
  | .node k tc cs => by
    rw [partialReduce, partialReduceAll_eq]
    refine Keeps.trans (keeps_map (tc' := tc) ?_) (reduceNode_keeps _ _ _)
    intro c hc
    have : sizeOf c < sizeOf cs := List.sizeOf_lt_of_mem hc
    exact partialReduce_keeps c

theorem preparePlan_keeps {p q : Plan Row} (h : preparePlan env p = .ok q)
    (hp : ∀ p1, normalize env p = .ok p1 → p1.parts ≤ 1) : Keeps p q := by
  unfold preparePlan at h
  obtain ⟨p1, h1, h2⟩ := bind_ok h
  have e : (if p1.parts > 1 then fresh (.coalesce none) [p1] else p1) = p1 := if_neg (by have := hp p1 h1; omega)
  rw [e] at h2
  refine (normalize_keeps h1).trans ?_
  have hb : Keeps p1 (if env.broadcastJoins = true then insertBroadcast p1 else p1) := by
    split
    · exact insertBroadcast_keeps p1
    · exact .refl _
  refine hb.trans ?_
  change (if env.isolateUnions = true then isolateUnions _ else Except.ok _) = Except.ok q at h2
  split at h2
  · exact isolateUnions_keeps h2
  · cases h2; exact .refl _

/-- Planning keeps the order a plan promises. -/
theorem plan_keeps (hs : ScaleKeepsOrder env) {p p' : Plan Row} (h : plan env p = .ok (some p'))
    (hp : ∀ p1, normalize env p = .ok p1 → p1.parts ≤ 1) : Keeps p p' := by
  obtain ⟨p1, p2, p3, id, h1, h2, h3, _, rfl⟩ := plan_steps h
  refine (preparePlan_keeps h1 hp).trans ((inject_keeps hs h2).trans ((prepare_keeps h3).trans ?_))
  split
  · exact partialReduce_keeps p3
  · exact .refl _

end DD.Tree
