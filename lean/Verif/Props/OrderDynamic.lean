/-
**C70** with task counts chosen while the query runs.
-/
import Verif.Props.Order
import Verif.Props.Dynamic

namespace DD.Tree

open DD.Limit

variable {Row : Type} {env : Env Row}

theorem insertSampler_keeps (p : Plan Row) : Keeps p (insertSampler p) := by
  intro o ho
  unfold insertSampler
  split
  · rename_i k tc c
    split
    · rename_i hk
      have hn : o = none := by
        cases o with
        | none => rfl
        | some le => have := ho.not_head; rw [show (Plan.node k tc [c]).kind.isHead = true from hk] at this; cases this
      subst hn
      obtain ⟨a, h1, h2, _⟩ := ho.inv
      refine .node (fun _ => none) ?_ ?_ (by rintro _ ⟨⟩)
      · intro i c' e
        match i with
        | 0 => cases e; exact ordered_one (h1 0 _ rfl).weaken ⟨fun _ => .inl rfl, by rintro _ ⟨⟩⟩
        | i + 1 => simp at e
      · cases k <;> first | (cases hk; done) | exact True.intro | exact h2
    · exact ho
  · exact ho

theorem sample_keeps : ∀ p : Plan Row, Keeps p (sample p)
  | .node k tc cs => by
    rw [sample, sampleAll_eq]
    have hk : ∀ c ∈ cs, Keeps c (sample c) := by
      intro c hc
      have : sizeOf c < sizeOf cs := List.sizeOf_lt_of_mem hc
      exact sample_keeps c
    split
    · rw [List.map_map]
      exact keeps_map fun c hc => (hk c hc).trans (insertSampler_keeps _)
    · exact keeps_map hk

/-- The order of the plan is kept, and every operator is given the order it relies on. -/
theorem dynamic_ordered (he : EnvOk env) (hs : ScaleKeepsOrder env) {p p' : Plan Row} {J : SInfo Row}
    (h : Src env .pre p J) (ho : J.one = true) {le}
    (hq : Ordered false p (some le)) (cpu : Plan Row → Plan Row → Except Err (Option Nat)) (bytes : Nat)
    (hp : dynamicPlan (env.costing cpu bytes) p = .ok p') : Ordered false p' (some le) := by
  have hsrc := h.costing cpu bytes
  obtain ⟨p1, p2, id, h1, h2, h3⟩ := dynamic_steps hp
  refine prepare_keeps h3 _ (sample_keeps _ _ (inject_keeps (env := env.costing cpu bytes) hs h2 _ (preparePlan_keeps h1 (fun p0 e => ?_) _ hq)))
  have := (normalize_src (he.costing cpu bytes) hsrc rfl p0 e).1.one_parts ho
  omega

/-- In a query planned while it runs every operator is given the order it relies on. -/
theorem dynamic_ordered_any (hs : ScaleKeepsOrder env) {p p' : Plan Row} {o} (hq : Ordered false p o)
    (cpu : Plan Row → Plan Row → Except Err (Option Nat)) (bytes : Nat)
    (hp : dynamicPlan (env.costing cpu bytes) p = .ok p') : Ordered false p' none := by
  obtain ⟨p1, p2, id, h1, h2, h3⟩ := dynamic_steps hp
  exact prepare_keeps h3 _ (sample_keeps _ _ (inject_keeps (env := env.costing cpu bytes) hs h2 _ (preparePlan_ordered hq h1)))

/-- **C70** Whatever the stages report, everything a query planned while it runs delivers is one of its answers. -/
theorem C70_dynamic_operators_get_sorted_inputs_partial (he : EnvOk env) (hs : ScaleKeepsOrder env) {p p' : Plan Row} {J : SInfo Row}
    (h : Src env .pre p J) (hrep : J.rep = false) (hroot : RootOk env p J) {o} (hq : Ordered false p o)
    (cpu : Plan Row → Plan Row → Except Err (Option Nat)) (bytes : Nat) (hp : dynamicPlan (env.costing cpu bytes) p = .ok p') :
    (∃ l, Delivers p' l) ∧ ∀ l, Delivers p' l → ∃ d, Answer p d ∧ J.eqv.eqv l d := by
  have hk := dynamic_ordered_any hs hq cpu bytes hp
  obtain ⟨_, hl, e⟩ := dynamic_src (he.costing cpu bytes) (h.costing cpu bytes) hrep (hroot.costing cpu bytes) hp
  refine ⟨hk.exists_delivers, ?_⟩
  rintro l ⟨r, hr, rfl⟩
  obtain ⟨d, hd, hg⟩ := hl.runs_good Nat.one_pos hk hr false
  obtain ⟨d', hd', e2⟩ := e d hd
  refine ⟨d', hd', J.eqv.trans ?_ e2⟩
  have := hg.share rfl
  have hp1 : r.1.parts = 1 := hg.parts
  simpa only [List.range_one, List.flatMap_cons, List.flatMap_nil, List.append_nil, Ran.rows, hp1] using this

/-- **C70** With task counts chosen while the query runs: whatever the stages report, the client receives the rows in the order the plan
promises, and they are one of its answers. Missing: as in `C70_promised_order_is_kept_partial`. -/
theorem C70_dynamic_order_is_kept_partial (he : EnvOk env) (hs : ScaleKeepsOrder env) {p p' : Plan Row} {J : SInfo Row}
    (h : Src env .pre p J) (hrep : J.rep = false) (hg : J.gathered = true) (ho : J.one = true) {le}
    (hq : Ordered false p (some le)) (cpu : Plan Row → Plan Row → Except Err (Option Nat)) (bytes : Nat)
    (hp : dynamicPlan (env.costing cpu bytes) p = .ok p') :
    (∃ l, Delivers p' l) ∧ ∀ l, Delivers p' l →
      l.Pairwise (fun x y => le x y = true) ∧ ∃ d, Answer p d ∧ J.eqv.eqv l d := by
  have hsrc := h.costing cpu bytes
  have hroot : RootOk env p J := .inl ⟨hg, ho⟩
  have hk := dynamic_ordered he hs h ho hq cpu bytes hp
  obtain ⟨_, hl, e⟩ := dynamic_src (he.costing cpu bytes) hsrc hrep (hroot.costing cpu bytes) hp
  refine ⟨hk.exists_delivers, ?_⟩
  rintro l ⟨r, hr, rfl⟩
  refine ⟨hk.sorted hr _ _ _, ?_⟩
  obtain ⟨d, hd, hg⟩ := hl.runs_good Nat.one_pos hk hr false
  obtain ⟨d', hd', e2⟩ := e d hd
  refine ⟨d', hd', J.eqv.trans ?_ e2⟩
  have := hg.share rfl
  have hp1 : r.1.parts = 1 := hg.parts
  simpa only [List.range_one, List.flatMap_cons, List.flatMap_nil, List.append_nil, Ran.rows, hp1] using this

/-- It applies to `ORDER BY` over a join, whatever a stage costs. -/
example : ∃ p', dynamicPlan (Demo.sess.costing (fun _ _ => .ok (some 7)) 2) Demo.probe = .ok p' ∧ (∃ l, Delivers p' l)
    ∧ ∀ l, Delivers p' l → l.Pairwise (fun x y => Demo.byKey x y = true) ∧ ∃ d, Answer Demo.probe d ∧ l.Perm d := by
  cases hp : dynamicPlan (Demo.sess.costing (fun _ _ => .ok (some 7)) 2) Demo.probe with
  | error e =>
    have : (dynamicPlan (Demo.sess.costing (fun _ _ => .ok (some 7)) 2) Demo.probe).isOk = true := by decide +kernel
    rw [hp] at this; cases this
  | ok p' => exact ⟨p', rfl, C70_dynamic_order_is_kept_partial Demo.sess_ok Demo.sess_keeps_order Demo.probe_src rfl rfl rfl
      Demo.probe_ordered _ _ hp⟩

end DD.Tree
