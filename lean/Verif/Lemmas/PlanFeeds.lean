/-
Where planned plans have coalesces: only below nodes that gather partitions.
-/
import Verif.Lemmas.PlanShapePrepare

namespace DD.Tree

variable {Row : Type} {env : Env Row} {keep : Bool}

def Kind.coal : Kind Row → Bool
  | .netCoalesce .. => true
  | _ => false

theorem coal_net {k : Kind Row} (h : k.isNet = false) : k.coal = false := by
  cases k <;> first | rfl | cases h

/-- Coalesces only stand below nodes that gather partitions; with `N`, boundaries have one child, not a boundary. -/
inductive Fed (N : Prop) : Plan Row → Prop where
  | node {k tc cs} : (∀ c ∈ cs, Fed N c) → (k.asParent ≠ .gathers → ∀ c ∈ cs, c.kind.coal = false)
      → (N → k.isNet = true → ∃ c, cs = [c] ∧ c.kind.isNet = false) → Fed N (.node k tc cs)

variable {N : Prop}

theorem Fed.inv {k tc} {cs : List (Plan Row)} (h : Fed N (.node k tc cs)) : (∀ c ∈ cs, Fed N c)
    ∧ (k.asParent ≠ .gathers → ∀ c ∈ cs, c.kind.coal = false) ∧ (N → k.isNet = true → ∃ c, cs = [c] ∧ c.kind.isNet = false) := by
  cases h with
  | node a b c => exact ⟨a, b, c⟩

theorem Fed.plain {P : Nat → Plan Row → Prop} (hP : ∀ t x, P t x → x.kind.isNet = false) : ∀ {p : Plan Row} {T}, Every P T p → Fed N p
  | .node k tc cs, T, h => by
    obtain ⟨h1, h2⟩ := every_node.mp h
    have hk : k.isNet = false := hP _ _ h1
    refine .node (fun c hc => ?_) (fun _ c hc => ?_) (fun _ e => by rw [hk] at e; cases e)
    · obtain ⟨i, hi⟩ := List.mem_iff_getElem?.mp hc
      have : sizeOf c < sizeOf cs := List.sizeOf_lt_of_mem hc
      exact Fed.plain hP (h2 i c hi)
    · obtain ⟨i, hi⟩ := List.mem_iff_getElem?.mp hc
      exact coal_net (hP _ _ (h2 i c hi _ _ .root))
termination_by p => sizeOf p

theorem propagate_fed (hs : ScalesLeaves env) : ∀ {q q' : Plan Row} {t}, Fed True q → propagate env q t = .ok q' →
    Fed True q' ∧ q'.kind.coal = q.kind.coal ∧ (q.kind.isNet = false → q'.kind.isNet = false)
  | .node k tc cs, q', t, hf, h => by
    obtain ⟨f1, f2, f3⟩ := hf.inv
    by_cases hne : cs = []
    · subst hne
      have hk : k.isNet = false := by
        cases hk : k.isNet with
        | false => rfl
        | true => obtain ⟨c, e, _⟩ := f3 trivial hk; cases e
      have h' : (match env.scale (.node k tc []) t.asUsize with
          | none => Except.ok (Plan.node k t [])
          | some (.error e) => .error e
          | some (.ok p) => .ok (p.withTc t)) = .ok q' := by
        rw [propagate.eq_def] at h
        simp only [List.isEmpty_nil, if_true] at h
        exact h
      split at h'
      · cases h'
        exact ⟨.node (by simp) (by simp) (fun _ e => by rw [hk] at e; cases e), rfl, fun h => h⟩
      · cases h'
      · rename_i p e
        cases h'
        have h0 := hs _ _ _ e
        cases p with
        | node k1 tc1 cs1 =>
          have hk1 : k1.isNet = false := (h0 _ _ .root).1
          obtain ⟨a, b, c⟩ := (Fed.plain (N := True) (P := fun _ x => x.kind.isNet = false ∧ (∀ m s, x.kind ≠ .join m s) ∧ (x.kind.isHead = true → x.children.length = 1) ∧ ∀ ws m, x.kind ≠ .ciu ws m) (fun _ _ h => h.1) h0).inv
          exact ⟨.node a b c, by show k1.coal = k.coal; rw [coal_net hk1, coal_net hk], fun _ => hk1⟩
    · -- the children, rewritten one by one
      have hch : ∀ cs' : List (Plan Row), cs'.length = cs.length → (∀ (i : Nat) c', cs'[i]? = some c' →
          ∃ c t, cs[i]? = some c ∧ propagate env c t = .ok c') →
          (∀ c ∈ cs', Fed True c) ∧ ((∀ c ∈ cs, c.kind.coal = false) → ∀ c ∈ cs', c.kind.coal = false) := by
        intro cs' l hall
        have key : ∀ c' ∈ cs', Fed True c' ∧ ∃ c ∈ cs, c'.kind.coal = c.kind.coal := by
          intro c' hc'
          obtain ⟨i, hi⟩ := List.mem_iff_getElem?.mp hc'
          obtain ⟨c, t, e1, e2⟩ := hall i c' hi
          have hm := List.mem_of_getElem? e1
          have : sizeOf c < sizeOf cs := List.sizeOf_lt_of_mem hm
          obtain ⟨a, b, _⟩ := propagate_fed hs (f1 c hm) e2
          exact ⟨a, c, hm, b⟩
        exact ⟨fun c hc => (key c hc).1, fun h c hc => by
          obtain ⟨c0, h0, e⟩ := (key c hc).2
          rw [e]; exact h c0 h0⟩
      cases hk : k.isNet with
      | true =>
        obtain ⟨c, rfl, hc⟩ := f3 trivial hk
        rw [propagate_net hk] at h
        cases h
        exact ⟨.node f1 f2 f3, rfl, fun e => by simp only [Plan.kind] at e; rw [hk] at e; cases e⟩
      | false =>
        by_cases hciu : ∃ ws m, k = .ciu ws m
        · obtain ⟨ws, m, rfl⟩ := hciu
          obtain ⟨ws', m', cs'', kk, rfl, l, _, _, hall⟩ := propagate_ciu hne h
          obtain ⟨a, b⟩ := hch cs'' l fun i c' hc' => by
            obtain ⟨c, x1, _, _, x3⟩ := hall i c' hc'
            exact ⟨c, _, x1, x3⟩
          exact ⟨.node a (fun e => b (f2 e)) (fun _ e => by cases e), rfl, fun _ => rfl⟩
        · obtain ⟨cs'', rfl, l, hall⟩ := propagate_inv hk (fun ws m e => hciu ⟨ws, m, e⟩) hne h
          obtain ⟨a, b⟩ := hch cs'' l fun i c' hc' => by
            obtain ⟨c, x1, x3⟩ := hall i c' hc'
            exact ⟨c, _, x1, x3⟩
          exact ⟨.node a (fun e => b (f2 e)) (fun _ e => by rw [hk] at e; cases e), rfl, fun _ => hk⟩
termination_by q => sizeOf q

theorem wrap_fed (hs : ScalesLeaves env) {par : Parent} {o q r : Plan Row} (hq : Fed True q) (hn : q.kind.isNet = false)
    (hl : q.kind.isHead = true → q.children.length = 1) (hw : wrap env par o q = .ok r) :
    Fed True r ∧ (r.kind.coal = true → par = .gathers) := by
  have hnet : ∀ (k : Kind Row) t (c : Plan Row), k.isNet = true → Fed True c → c.kind.isNet = false → Fed True (.node k t [c]) := by
    intro k t c hk hc hcn
    exact .node (by simpa using hc) (fun _ => by simpa using coal_net hcn) fun _ _ => ⟨c, rfl, hcn⟩
  cases hf : q.kind.fans with
  | true =>
    obtain ⟨c, t, k, e1, rfl, e3, _, e5, _⟩ := wrap_fans (D := False) hf (hl (by
      cases hk : q.kind <;> first | rfl | (rw [hk] at hf; cases hf))) hw
    obtain ⟨_, _, e1⟩ := bind_ok e1
    obtain ⟨c1, h1, h2⟩ := bind_ok e1
    cases h2
    obtain ⟨a, _, b⟩ := propagate_fed hs hq h1
    refine ⟨hnet _ _ _ e3 a (b hn), fun e => ?_⟩
    cases k
    case netCoalesce => exact absurd rfl (e5 _ _ _)
    all_goals cases e
  | false =>
    cases par with
    | other => rw [wrap_other hf] at hw; cases hw; exact ⟨hq, fun e => by rw [coal_net hn] at e; cases e⟩
    | root =>
      rw [wrap_root hf] at hw
      obtain ⟨a, b, _⟩ := propagate_fed hs hq hw
      exact ⟨a, fun e => by rw [b, coal_net hn] at e; cases e⟩
    | gathers =>
      obtain ⟨c, s, e1, rfl⟩ := wrap_gathers hf hw
      obtain ⟨_, _, e1⟩ := bind_ok e1
      obtain ⟨c1, h1, h2⟩ := bind_ok e1
      cases h2
      obtain ⟨a, _, b⟩ := propagate_fed hs hq h1
      exact ⟨hnet _ _ _ rfl a (b hn), fun _ => rfl⟩

theorem inject_fed (hs : ScalesLeaves env) : ∀ {p : Plan Row} {par q}, PlainAll p → inject env par p = .ok q →
    Fed True q ∧ (q.kind.coal = true → par = .gathers)
  | .node k tc cs, par, q, hp, h => by
    obtain ⟨p1, p2⟩ := plain_node.mp hp
    obtain ⟨cs', d, e1, e2, e3⟩ := inject_inv h
    obtain ⟨i1, i2⟩ := injectAll_inv e1
    have hc : ∀ c ∈ cs', Fed True c ∧ (c.kind.coal = true → k.asParent = .gathers) := by
      intro c' hc'
      obtain ⟨i, hi⟩ := List.mem_iff_getElem?.mp hc'
      obtain ⟨c, x1, x2⟩ := i2 i c' hi
      have hm := List.mem_of_getElem? x1
      have : sizeOf c < sizeOf cs := List.sizeOf_lt_of_mem hm
      exact inject_fed hs (p2 c hm) x2
    refine wrap_fed hs (.node (fun c h => (hc c h).1) (fun hne c h => ?_) (fun _ e => ?_)) p1.1 (fun e => ?_) e3
    · cases hcc : c.kind.coal with
      | false => rfl
      | true => exact absurd ((hc c h).2 hcc) hne
    · have := p1.1
      simp only [Plan.kind] at this
      rw [this] at e; cases e
    · have := p1.2.2 e
      simp only [Plan.children] at this ⊢
      omega
termination_by p => sizeOf p

theorem strip_fed {c : Plan Row} (h : Fed N c) (hn : c.kind.coal = false) : Fed N (strip c) ∧ (strip c).kind.coal = false := by
  rcases strip_cases c with e | ⟨hk, x, rest, e, e'⟩
  · rw [e]; exact ⟨h, hn⟩
  · rw [e']
    cases c with
    | node k tc cs =>
      simp only [Plan.children] at e
      subst e
      obtain ⟨a, b, _⟩ := h.inv
      refine ⟨a x (by simp), b ?_ x (by simp)⟩
      cases k <;> first | (intro h; cases h; done) | cases hk

theorem prepare_fed : ∀ {p : Plan Row} {t id p' id'}, Fed True p → prepare keep p t id = .ok (p', id') →
    Fed False p' ∧ (p'.kind.coal = true → p.kind.coal = true)
  | .node k tc cs, t, id, p', id', hf, h => by
    obtain ⟨f1, f2, f3⟩ := hf.inv
    obtain ⟨cs', id1, _, l, h1, h2⟩ := prepare_inv h
    have hc : ∀ c' ∈ cs', Fed False c' ∧ ∃ c ∈ cs, c'.kind.coal = true → c.kind.coal = true := by
      intro c' hc'
      obtain ⟨i, hi⟩ := List.mem_iff_getElem?.mp hc'
      obtain ⟨c, a, b, e1, e2⟩ := h1 i c' hi
      have hm := List.mem_of_getElem? e1
      have : sizeOf c < sizeOf cs := List.sizeOf_lt_of_mem hm
      obtain ⟨x, y⟩ := prepare_fed (f1 c hm) e2
      exact ⟨x, c, hm, y⟩
    rcases prepareNode_inv h2 with ⟨hk, rfl, _⟩ | ⟨c', rest, rfl, hk, h3⟩
    · refine ⟨.node (fun c h => (hc c h).1) (fun hne c h => ?_) False.elim, fun h => h⟩
      obtain ⟨c0, m, e⟩ := (hc c h).2
      cases hcc : c.kind.coal with
      | false => rfl
      | true => have := e hcc; rw [f2 hne c0 m] at this; cases this
    · obtain ⟨c0, rfl, hcn⟩ := f3 trivial hk
      obtain ⟨x1, c1, m1, x2⟩ := hc c' (by simp)
      have e1 : c1 = c0 := by simpa using m1
      subst e1
      have hcoal : c'.kind.coal = false := by
        cases hcc : c'.kind.coal with
        | false => rfl
        | true => have := x2 hcc; rw [coal_net hcn] at this; cases this
      rcases h3 with ⟨_, _, _, rfl, _⟩ | ⟨_, c'', h3, rfl, _⟩
      · exact ⟨x1, fun e => by rw [hcoal] at e; cases e⟩
      · obtain ⟨s1, s2⟩ := strip_fed x1 hcoal
        have hr : Fed False c'' ∧ c''.kind.coal = false := by
          rcases insert_inv h3 with ⟨_, rfl⟩ | ⟨f, n, _, rfl⟩ | ⟨n, _, _, rfl⟩
          · exact ⟨s1, s2⟩
          · exact ⟨.node (by simpa using s1) (fun _ => by simpa using s2) False.elim, rfl⟩
          · exact ⟨.node (by simpa using s1) (fun _ => by simpa using s2) False.elim, rfl⟩
        refine ⟨.node (by simpa using hr.1) (fun _ => by simpa using hr.2) False.elim, fun e => ?_⟩
        cases k <;> exact e
termination_by p => sizeOf p

theorem partialReduce_fed : ∀ {p : Plan Row}, Fed False p → Fed False (partialReduce p) ∧ (partialReduce p).kind = p.kind
  | .node k tc cs, h => by
    obtain ⟨f1, f2, _⟩ := h.inv
    have hc : ∀ c ∈ cs.map partialReduce, Fed False c ∧ ∃ c0 ∈ cs, c.kind = c0.kind := by
      intro c hc
      obtain ⟨c0, m, rfl⟩ := List.mem_map.mp hc
      have : sizeOf c0 < sizeOf cs := List.sizeOf_lt_of_mem m
      exact ⟨(partialReduce_fed (f1 c0 m)).1, c0, m, (partialReduce_fed (f1 c0 m)).2⟩
    have hfed : Fed False (.node k tc (cs.map partialReduce)) := by
      refine .node (fun c h => (hc c h).1) (fun hne c h => ?_) False.elim
      obtain ⟨c0, m, e⟩ := (hc c h).2
      rw [e]; exact f2 hne c0 m
    rw [partialReduce, partialReduceAll_eq]
    generalize cs.map partialReduce = cs' at *
    unfold reduceNode
    split
    · obtain ⟨a, _, _⟩ := hfed.inv
      exact ⟨.node (fun c hc => by
        simp only [List.mem_singleton] at hc
        subst hc
        exact .node (by intro x hx; simp only [List.mem_singleton] at hx; subst hx; exact a _ (by simp)) (fun _ => by simp [Plan.kind, Kind.coal]) False.elim)
        (fun _ => by simp [fresh, Plan.kind, Kind.coal]) False.elim, rfl⟩
    · exact ⟨hfed, rfl⟩
termination_by p => sizeOf p

theorem Fed.at : ∀ {p : Plan Row} {T t x}, Fed N p → At T p t x → Fed N x
  | _, _, _, _, h, .root => h
  | _, _, _, _, h, .child hi ha => Fed.at (h.inv.1 _ (List.mem_of_getElem? hi)) ha

end DD.Tree
