/-
The shape of planned plans, whatever the plan.
-/
import Verif.Lemmas.PlanShape
import Verif.Lemmas.PlanPasses

namespace DD.Tree

variable {Row : Type} {env : Env Row} {D : Prop} {keep : Bool}

theorem every_const {P : Plan Row → Prop} {T T' : Nat} : ∀ {p : Plan Row},
    Every (fun _ => P) T p → Every (fun _ => P) T' p
  | .node k tc cs, h => by
    obtain ⟨h1, h2⟩ := every_node.mp h
    refine every_node.mpr ⟨h1, fun i c hi => ?_⟩
    have : sizeOf c < sizeOf cs := List.sizeOf_lt_of_mem (List.mem_of_getElem? hi)
    exact every_const (h2 i c hi)
termination_by p => sizeOf p

/-- Running the head stage with one task. -/
theorem Every.one {P : Nat → Plan Row → Prop} (hP : ∀ t x, P t x → P 1 x) : ∀ {p : Plan Row} {T}, Every P T p → Every P 1 p
  | .node k tc cs, T, h => by
    obtain ⟨h1, h2⟩ := every_node.mp h
    refine every_node.mpr ⟨hP _ _ h1, fun i c hi => ?_⟩
    have : sizeOf c < sizeOf cs := List.sizeOf_lt_of_mem (List.mem_of_getElem? hi)
    have h3 := h2 i c hi
    by_cases hn : k.isNet = true
    · rw [childCount_net hn] at h3 ⊢; exact h3
    · by_cases hc : ∃ ws m, k = .ciu ws m
      · obtain ⟨ws, m, rfl⟩ := hc; exact h3
      · have e := childCount_same (by simpa using hn) (fun ws m e => hc ⟨ws, m, e⟩)
        rw [e] at h3 ⊢
        exact h3.one hP
termination_by p => sizeOf p

/-- What holds of every node of a planned plan and the task count it runs with. -/
structure NodeOk (env : Env Row) (t : Nat) (x : Plan Row) : Prop where
  net : x.kind.isNet = true → (∃ c, x.children = [c]) ∧ 1 ≤ x.kind.tasks ∧ x.kind.tasks ≤ env.maxTasks
  head : x.kind.isHead = true → x.children.length = 1
  pinned : pinned env x.kind = true → t = 1
  gathers : ∀ p n i, x.kind = .netCoalesce p n i → t = 1
  branches : ∀ ws m, x.kind = .ciu ws m → ∀ i < x.children.length, 1 ≤ unionCount m i ∧ unionCount m i ≤ env.maxTasks

theorem NodeOk.to_one {t} {x : Plan Row} (h : NodeOk env t x) : NodeOk env 1 x :=
  ⟨h.net, h.head, fun _ => rfl, fun _ _ _ _ => rfl, h.branches⟩

/-- A boundary as it is created, before it is prepared: its partition count is that of its input, times the number of
input tasks for a coalesce, whose input is not itself a repartitioning if `D`. -/
def PreNet (D : Prop) (x : Plan Row) : Prop :=
  (∀ h p n i, x.kind = .shuffle h p n i → ∃ o tc tc' y, x = .node x.kind tc [.node (.hashRepart h p o) tc' [y]])
  ∧ (∀ p n i, x.kind = .netBroadcast p n i → ∃ tc b tc' y, x = .node x.kind tc [.node (.broadcast b) tc' [y]]
      ∧ p = (Plan.node (.broadcast b) tc' [y]).parts)
  ∧ (∀ p n i, x.kind = .netCoalesce p n i → ∃ tc c, x = .node x.kind tc [c] ∧ p = c.parts * n
      ∧ c.kind.isNet = false ∧ (D → c.kind.isHead = false))

/-- What holds of every node before the boundaries are prepared. -/
structure PreOk (env : Env Row) (D : Prop) (t : Nat) (x : Plan Row) : Prop extends NodeOk env t x where
  pre : PreNet D x

theorem PreNet.of_plain {x : Plan Row} (h : x.kind.isNet = false) : PreNet D x :=
  ⟨fun _ _ _ _ e => (by rw [e] at h; cases h), fun _ _ _ e => (by rw [e] at h; cases h),
    fun _ _ _ e => (by rw [e] at h; cases h)⟩

theorem PreOk.to_one {t} {x : Plan Row} (h : PreOk env D t x) : PreOk env D 1 x := ⟨h.toNodeOk.to_one, h.pre⟩

/-- The predicate of `Undistributed`. -/
def Plain (x : Plan Row) : Prop := x.kind.isNet = false ∧ (x.children = [] → ∀ m s, x.kind ≠ .join m s)
    ∧ (x.kind.isHead = true → x.children.length = 1)

theorem NodeOk.of_plain {t} {x : Plan Row} (h : x.kind.isNet = false) (hh : x.kind.isHead = true → x.children.length = 1)
    (hp : Tree.pinned env x.kind = true → t = 1)
    (hb : ∀ ws m, x.kind = .ciu ws m → ∀ i < x.children.length, 1 ≤ unionCount m i ∧ unionCount m i ≤ env.maxTasks) :
    NodeOk env t x :=
  ⟨fun e => (by rw [h] at e; cases e), hh, hp, fun p n i e => (by rw [e] at h; cases h), hb⟩

theorem PreOk.of_plain {t} {x : Plan Row} (h : x.kind.isNet = false) (hh : x.kind.isHead = true → x.children.length = 1)
    (hp : Tree.pinned env x.kind = true → t = 1)
    (hb : ∀ ws m, x.kind = .ciu ws m → ∀ i < x.children.length, 1 ≤ unionCount m i ∧ unionCount m i ≤ env.maxTasks) :
    PreOk env D t x := ⟨.of_plain h hh hp hb, .of_plain h⟩

theorem pinned_join {k : Kind Row} (h : pinned env k = true) : ∃ m s, k = .join m s := by
  cases k with
  | join m s => exact ⟨m, s, rfl⟩
  | _ => cases h

/-- A node after injection: well-shaped with whatever allowed task count its stage gets. -/
structure Shaped (env : Env Row) (D : Prop) (q : Plan Row) : Prop where
  pos : 1 ≤ q.tc.asUsize
  every : ∀ t q', Allowed q.tc t.asUsize → t.asUsize ≤ env.maxTasks → propagate env q t = .ok q' → Every (PreOk env D) t.asUsize q'

/-- Inversion of `propagate` at an isolated union. -/
theorem propagate_ciu {ws m a t} {cs : List (Plan Row)} (hne : cs ≠ []) {q'}
    (h : propagate env (.node (.ciu ws m) a cs) t = .ok q') :
    ∃ ws' m' cs'' k, q' = .node (.ciu ws' m') t cs'' ∧ cs''.length = cs.length ∧ m'.length = t.asUsize
      ∧ Union.RunsAll cs.length k m' ∧ ∀ (i : Nat) c'', cs''[i]? = some c'' →
        ∃ c, cs[i]? = some c ∧ Allowed c.tc (k i) ∧ k i ≤ max 1 t.asUsize ∧ propagate env c (.maximum (k i)) = .ok c'' := by
  have hempty : cs.isEmpty = false := by
    cases cs with
    | nil => exact absurd rfl hne
    | cons => rfl
  rw [propagate] at h
  simp only [hempty, Kind.isNet, Bool.false_eq_true, if_false] at h
  obtain ⟨n, h1, h⟩ := bind_ok h
  obtain ⟨cs'', h2, h⟩ := bind_ok h
  obtain ⟨n', h3, h⟩ := bind_ok h
  cases h
  obtain ⟨m1, m2, m3, m4⟩ := Union.make_map h1
  have hacc := Union.accepted_of_split m2
  obtain ⟨mm, s1, s2, s3, _⟩ := Union.split_spec hacc
  rw [m2] at s1; cases s1
  generalize hk : (fun c => max 1 ((Union.taskCounts (Union.shares (cs.map fun c => weightOf c.tc) t.asUsize)
    ((cs.map fun c => weightOf c.tc).map (·.max)) t.asUsize).getD c 0)) = k at s3
  have hcap := (Union.C15_caps_budget_proportion _ _ hacc _ k m2 s3).1
  have hsum := (Union.C15_caps_budget_proportion _ _ hacc _ k m2 s3).2.1
  have s3' : Union.RunsAll (cs.map Plan.parts).length k n.map := by rw [m1]; exact s3
  obtain ⟨c1, c2⟩ := Union.C53_child_task_counts _ _ _ _ k h1 s3'
  simp only [List.length_map] at c1 c2
  obtain ⟨p1, p2⟩ := propagateEach_inv (by simp [c1]) h2
  obtain ⟨n2, r1, r2, r3, r4⟩ := Union.C53_rewrite_keeps_assignment _ (cs''.map Plan.parts) _ _ _ h1 (by simp [p1])
  rw [r1] at h3; cases h3
  refine ⟨_, _, cs'', k, rfl, p1, by rw [r2]; exact s2, by rw [r2]; simpa using s3, ?_⟩
  intro i c'' hc''
  obtain ⟨c', t', x1, x2, x3⟩ := p2 i c'' hc''
  have hi : i < cs.length := (List.getElem?_eq_some_iff.mp x1).1
  simp only [List.getElem?_map, Option.map_eq_some_iff] at x2
  obtain ⟨v, x2, rfl⟩ := x2
  have hv : v = k i := by
    rw [← c2 i hi, List.getD_eq_getElem?_getD, x2]; rfl
  subst hv
  have hki : 1 ≤ k i := s3.1 i (by simpa using hi)
  refine ⟨c', x1, ?_, ?_, x3⟩
  case refine_2 =>
    by_cases h2 : 2 ≤ k i
    · have : k i ≤ (((List.range (cs.map fun c => weightOf c.tc).length).filter fun c => decide (2 ≤ k c)).map k).sum :=
        List.le_sum_of_mem (List.mem_map.mpr ⟨i, by simp [hi, h2], rfl⟩)
      omega
    · omega
  cases htc : c'.tc with
  | desired w => exact hki
  | maximum w =>
    refine ⟨hki, hcap i (weightOf c'.tc) w ?_ ?_⟩
    · simp [x1]
    · rw [htc]; rfl

/-- `propagate` at a leaf. -/
theorem propagate_leaf (hs : ScalesLeaves env) {k : Kind Row} {tc t} {q'} (hk : k.isNet = false) (hj : ∀ m s, k ≠ .join m s)
    (hh : k.isHead = false)
    (h : propagate env (.node k tc []) t = .ok q') : Every (PreOk env D) t.asUsize q' := by
  have hp : ∀ k : Kind Row, (∀ m s, k ≠ .join m s) → ∀ T, pinned env k = true → T = 1 := by
    intro k hj T h
    obtain ⟨m, s, e⟩ := pinned_join h
    exact absurd e (hj m s)
  have h' : (match env.scale (.node k tc []) t.asUsize with
      | none => Except.ok (Plan.node k t [])
      | some (.error e) => .error e
      | some (.ok p) => .ok (p.withTc t)) = .ok q' := by
    rw [propagate.eq_def] at h
    simp only [List.isEmpty_nil, if_true] at h
    exact h
  split at h'
  · cases h'
    exact every_node.mpr ⟨.of_plain hk (fun h => by simp only [Plan.kind] at h; rw [hh] at h; cases h) (hp k hj _) (fun _ _ _ i hi => by simp [Plan.children] at hi), fun i c hc => by simp at hc⟩
  · cases h'
  · rename_i p e
    cases h'
    have := hs _ _ _ e
    cases p with
    | node k1 tc1 cs1 =>
      obtain ⟨h1, h2⟩ := (every_node (P := fun _ x => x.kind.isNet = false ∧ (∀ m s, x.kind ≠ .join m s) ∧ (x.kind.isHead = true → x.children.length = 1) ∧ ∀ ws m, x.kind ≠ .ciu ws m)).mp this
      refine every_node.mpr ⟨.of_plain h1.1 h1.2.2.1 (hp _ h1.2.1 _) (fun ws m e => absurd e (h1.2.2.2 ws m)), fun i c hc => ?_⟩
      exact (h2 i c hc).imp fun t x hx => .of_plain hx.1 hx.2.2.1 (hp _ hx.2.1 t) (fun ws m e => absurd e (hx.2.2.2 ws m))

theorem propagate_kind (hs : ScalesLeaves env) {q c : Plan Row} {t} (hn : q.kind.isNet = false)
    (h : propagate env q t = .ok c) :
    c.kind.isNet = false ∧ (q.kind.isHead = false → ScalesToSources env → c.kind.isHead = false) := by
  cases q with
  | node k tc cs =>
    by_cases hne : cs = []
    · subst hne
      have h' : (match env.scale (.node k tc []) t.asUsize with
          | none => Except.ok (Plan.node k t [])
          | some (.error e) => .error e
          | some (.ok p) => .ok (p.withTc t)) = .ok c := by
        rw [propagate.eq_def] at h
        simp only [List.isEmpty_nil, if_true] at h
        exact h
      split at h'
      · cases h'; exact ⟨hn, fun h _ => h⟩
      · cases h'
      · rename_i p e
        cases h'
        have := (hs _ _ _ e _ _ .root).1
        cases p with
        | node k1 tc1 cs1 => exact ⟨this, fun _ h => (h _ _ _ e : k1.isHead = false)⟩
    · by_cases hciu : ∃ ws m, k = .ciu ws m
      · obtain ⟨ws, m, rfl⟩ := hciu
        obtain ⟨ws', m', cs'', kk, rfl, _⟩ := propagate_ciu hne h
        exact ⟨rfl, fun _ _ => rfl⟩
      · obtain ⟨cs'', rfl, _⟩ := propagate_inv hn (fun ws m e => hciu ⟨ws, m, e⟩) hne h
        exact ⟨hn, fun h _ => h⟩

theorem annotate_le {k : Kind Row} {d} {cs : List (Plan Row)} : (annotate env k d cs).asUsize ≤ env.maxTasks := by
  unfold annotate
  generalize (if cs.isEmpty then d.getD (.maximum 1) else _) = t
  cases t <;> exact Nat.min_le_right ..

theorem annotate_leaf (he : EnvOk env) {k : Kind Row} {p : Plan Row} {d} (hd : env.desired p = .ok d) :
    1 ≤ (annotate env k d []).asUsize := by
  unfold annotate
  apply limit_pos _ he.maxTasks
  cases d with
  | none => exact Nat.le_refl _
  | some t => exact he.desired p t hd

/-- The annotated node, before a boundary is put above it. -/
theorem shaped_node (he : EnvOk env) (hs : ScalesLeaves env) {k : Kind Row} {tc} {cs cs' : List (Plan Row)} {d}
    (hplain : Plain (.node k tc cs)) (hd : env.desired (.node k tc cs) = .ok d) (hl : cs'.length = cs.length)
    (hc : ∀ c ∈ cs', Shaped env D c) : Shaped env D (.node k (annotate env k d cs') cs') := by
  by_cases hne : cs' = []
  · subst hne
    have : cs = [] := List.length_eq_zero_iff.mp hl.symm
    subst this
    exact ⟨annotate_leaf he hd, fun t q' _ _ h => propagate_leaf hs hplain.1 (hplain.2.1 rfl) (by
      cases hh : k.isHead with
      | false => exact hh
      | true => have := hplain.2.2 hh; simp [Plan.children] at this) h⟩
  · have hpos : ∀ c ∈ cs', 1 ≤ c.tc.asUsize := fun c h => (hc c h).pos
    by_cases hciu : ∃ ws m, k = .ciu ws m
    · obtain ⟨ws, m, rfl⟩ := hciu
      refine ⟨annotate_ciu (ws := ws) (m := m) he hne hpos, fun t q' _ hm h => ?_⟩
      obtain ⟨ws', m', cs'', kk, rfl, l, _, hr, hall⟩ := propagate_ciu hne h
      have hM := he.maxTasks
      refine every_node.mpr ⟨.of_plain rfl (fun h => by cases h) (fun h => by cases h) (fun _ _ e i hi => ?_), fun i c'' hc'' => ?_⟩
      · cases e
        simp only [Plan.children] at hi
        obtain ⟨c, e1, e2, e3, e4⟩ := hall i cs''[i] (by simp [hi])
        rw [unionCount_eq hr (by omega)]
        exact ⟨hr.1 i (by omega), by omega⟩
      obtain ⟨c, e1, e2, em, e3⟩ := hall i c'' hc''
      have hi := (List.getElem?_eq_some_iff.mp e1).1
      show Every _ (unionCount m' i) c''
      rw [unionCount_eq hr hi]
      exact (hc c (List.mem_of_getElem? e1)).every (.maximum (kk i)) c'' e2 (show kk i ≤ _ by omega) e3
    · have hk : ∀ ws m, k ≠ .ciu ws m := fun ws m e => hciu ⟨ws, m, e⟩
      obtain ⟨a1, a2, a3⟩ := annotate_spec he hk hd hne hpos
      refine ⟨a1, fun t q' ht hm h => ?_⟩
      obtain ⟨cs'', rfl, l, hall⟩ := propagate_inv hplain.1 hk hne h
      refine every_node.mpr ⟨.of_plain hplain.1 (fun h => by have := hplain.2.2 h; simp only [Plan.children] at this ⊢; omega) ?_ (fun ws m e => absurd e (hk ws m)), fun i c'' hc'' => ?_⟩
      · intro hp
        simp only [Plan.tc] at ht
        rw [a3 (.inl hp)] at ht
        exact allowed_maximum_one ht
      · obtain ⟨c, e1, e2⟩ := hall i c'' hc''
        rw [childCount_same hplain.1 hk]
        exact (hc c (List.mem_of_getElem? e1)).every t c'' (a2 _ ht c (List.mem_of_getElem? e1)) hm e2

theorem pinned_net {k : Kind Row} (hk : k.isNet = true) : pinned env k = false := by
  cases k <;> first | rfl | cases hk

/-- A new boundary. -/
theorem shaped_net {k : Kind Row} (hk : k.isNet = true) {t : TaskCount} (ht : 1 ≤ t.asUsize) {c : Plan Row}
    (h1 : 1 ≤ k.tasks) (h2 : k.tasks ≤ env.maxTasks) (hg : ∀ p n i, k = .netCoalesce p n i → t = .maximum 1)
    (hpre : ∀ t, PreNet D (.node k t [c])) (hc : Every (PreOk env D) k.tasks c) :
    Shaped env D (.node k t [c]) ∧ ((∀ p n i, k ≠ .netCoalesce p n i) → Every (PreOk env D) 1 (.node k t [c])) := by
  have hev : ∀ T t', (∀ p n i, k = .netCoalesce p n i → T = 1) → Every (PreOk env D) T (.node k t' [c]) := by
    intro T t' hT
    refine every_node.mpr ⟨⟨⟨fun _ => ⟨⟨c, rfl⟩, h1, h2⟩, fun _ => rfl, fun h => ?_, hT, fun ws m e => by
      simp only [Plan.kind] at e; rw [e] at hk; cases hk⟩, hpre t'⟩, fun i x hx => ?_⟩
    · simp only [Plan.kind] at h
      rw [pinned_net hk] at h; cases h
    · match i with
      | 0 => simp at hx; subst hx; rw [childCount_net hk]; exact hc
  refine ⟨⟨ht, fun t' q' ha _ h => ?_⟩, fun h => hev 1 t fun p n i e => absurd e (h p n i)⟩
  rw [propagate_net hk] at h
  cases h
  refine hev _ _ fun p n i e => ?_
  simp only [Plan.tc] at ha
  rw [hg p n i e] at ha
  exact allowed_maximum_one ha

theorem wrap_fans {par : Parent} {o q r : Plan Row} (h : q.kind.fans = true) (hl : q.children.length = 1)
    (hw : wrap env par o q = .ok r) :
    ∃ c t k, build env o q = .ok (c, t) ∧ r = .node k (consumerCount env c t) [c] ∧ k.isNet = true
      ∧ k.tasks = t.asUsize
      ∧ (∀ p n i, k ≠ .netCoalesce p n i) ∧ ∀ t', PreNet D (.node k t' [c]) := by
  cases q with
  | node k tc cs =>
    obtain ⟨y, rfl⟩ := one_of_length (by simpa [Plan.children] using hl)
    cases k
    case hashRepart f n o' =>
      change (do
        let (c, t) ← build env o (.node (.hashRepart f n o') tc [y])
        Except.ok (Plan.node (.shuffle f n t.asUsize 0) (consumerCount env c t) [c])) = Except.ok r at hw
      obtain ⟨⟨c, t⟩, e1, e2⟩ := bind_ok hw
      cases e2
      refine ⟨c, t, _, e1, rfl, rfl, rfl, by simp, fun t' => ?_⟩
      obtain ⟨t1, _, e1⟩ := bind_ok e1
      obtain ⟨c1, h1, h2⟩ := bind_ok e1
      cases h2
      obtain ⟨cs', rfl, l, _⟩ := propagate_inv (k := .hashRepart f n o') rfl (by simp) (by simp) h1
      obtain ⟨y', rfl⟩ := one_of_length (by simpa using l)
      refine ⟨?_, by simp [Plan.kind], by simp [Plan.kind]⟩
      intro h p n i e
      cases e
      exact ⟨_, _, _, _, rfl⟩
    case broadcast n =>
      change (do
        let (c, t) ← build env o (.node (.broadcast n) tc [y])
        Except.ok (Plan.node (.netBroadcast c.parts t.asUsize 0) (consumerCount env c t) [c])) = Except.ok r at hw
      obtain ⟨⟨c, t⟩, e1, e2⟩ := bind_ok hw
      cases e2
      refine ⟨c, t, _, e1, rfl, rfl, rfl, by simp, fun t' => ?_⟩
      obtain ⟨t1, _, e1⟩ := bind_ok e1
      obtain ⟨c1, h1, h2⟩ := bind_ok e1
      cases h2
      obtain ⟨cs', rfl, l, _⟩ := propagate_inv (k := .broadcast n) rfl (by simp) (by simp) h1
      obtain ⟨y', rfl⟩ := one_of_length (by simpa using l)
      refine ⟨by simp [Plan.kind], ?_, by simp [Plan.kind]⟩
      intro p n i e
      cases e
      exact ⟨_, _, _, _, rfl, rfl⟩
    all_goals cases h

theorem shaped_wrap (he : EnvOk env) (hs : ScalesLeaves env) (hD : D → ScalesToSources env) {par : Parent} {o q r : Plan Row} (hq : Shaped env D q) (hle : q.tc.asUsize ≤ env.maxTasks)
    (hl : q.kind.isHead = true → q.children.length = 1) (hn : q.kind.isNet = false)
    (hdeal : D → par = .gathers → ∀ n deal, q.kind ≠ .otherRepart n deal) (hw : wrap env par o q = .ok r) : (par ≠ .root → Shaped env D r) ∧ (par = .root → Every (PreOk env D) 1 r) := by
  cases hf : q.kind.fans with
  | true =>
    obtain ⟨c, t, k, e1, rfl, e3, e4, e5, e6⟩ := wrap_fans hf (hl (by
      cases hk : q.kind <;> first | rfl | (rw [hk] at hf; cases hf))) hw
    obtain ⟨b1, b3, b4, b2, _⟩ := build_inv he hq.pos e1
    have hc := hq.every t c b3 (b4 hle) b1
    obtain ⟨s1, s2⟩ := shaped_net (env := env) (D := D) e3 b2 (c := c) (by rw [e4]; exact b3.pos) (by rw [e4]; exact b4 hle)
      (fun p n i e => absurd e (e5 p n i)) e6 (by rw [e4]; exact hc)
    exact ⟨fun _ => s1, fun _ => s2 e5⟩
  | false =>
    cases par with
    | other => rw [wrap_other hf] at hw; cases hw; exact ⟨fun _ => hq, fun h => by cases h⟩
    | root =>
      rw [wrap_root hf] at hw
      refine ⟨fun h => absurd rfl h, fun _ => ?_⟩
      exact Every.one (P := PreOk env D) (fun _ _ h => h.to_one) (hq.every q.tc r (allowed_self hq.pos) hle hw)
    | gathers =>
      obtain ⟨c, s, e1, rfl⟩ := wrap_gathers hf hw
      obtain ⟨e1, b3, b4, _⟩ := build_inv he hq.pos e1
      have hc := hq.every s c b3 (b4 hle) e1
      refine ⟨fun _ => ?_, fun h => by cases h⟩
      exact (shaped_net (env := env) (D := D) (k := .netCoalesce _ s.asUsize 0) (t := .maximum 1) rfl (Nat.le_refl 1) (c := c) b3.pos (b4 hle) (fun _ _ _ _ => rfl) (fun t' => by
        refine ⟨by simp [Plan.kind], by simp [Plan.kind], fun p n i e => ?_⟩
        cases e
        refine ⟨_, _, rfl, ?_, ?_, fun d => ?_⟩
        · congr 1
          have := b3.pos
          simp [divCeil]; omega
        · exact (propagate_kind hs hn e1).1
        · refine (propagate_kind hs hn e1).2 ?_ (hD d)
          have := hdeal d rfl
          cases hk : q.kind <;> simp_all [Kind.isHead, Kind.fans]) hc).1

theorem asParent_ne_root (k : Kind Row) : k.asParent ≠ .root := by cases k <;> simp [Kind.asParent]

theorem inject_shape (he : EnvOk env) (hs : ScalesLeaves env) (hD : D → ScalesToSources env) : ∀ {p : Plan Row} {par q},
    Every (fun _ => Plain) 1 p → (D → NotDealtAndGathered p ∧ (par = .gathers → ∀ n deal, p.kind ≠ .otherRepart n deal)) →
    inject env par p = .ok q →
    (par ≠ .root → Shaped env D q) ∧ (par = .root → Every (PreOk env D) 1 q)
  | .node k tc cs, par, q, hp, hdeal, h => by
    obtain ⟨p1, p2⟩ := every_node.mp hp
    obtain ⟨cs', d, e1, e2, e3⟩ := inject_inv h
    obtain ⟨i1, i2⟩ := injectAll_inv e1
    have hc : ∀ c ∈ cs', Shaped env D c := by
      intro c' hc'
      obtain ⟨i, hi, rfl⟩ := List.getElem_of_mem hc'
      obtain ⟨c, x1, x2⟩ := i2 i cs'[i] (by simp)
      have : sizeOf c < sizeOf cs := List.sizeOf_lt_of_mem (List.mem_of_getElem? x1)
      refine (inject_shape he hs hD (every_const (p2 i c x1)) (fun d => ?_) x2).1 (asParent_ne_root k)
      obtain ⟨g1, g2⟩ := (every_node (P := fun _ x => x.kind.asParent = .gathers → ∀ c ∈ x.children, ∀ n deal, c.kind ≠ .otherRepart n deal)).mp (hdeal d).1
      exact ⟨every_const (g2 i c x1), fun e => g1 e c (List.mem_of_getElem? x1)⟩
    exact shaped_wrap he hs hD (shaped_node he hs p1 e2 i1 hc) annotate_le (fun e => by
      have := p1.2.2 e; simp only [Plan.children] at this ⊢; omega) p1.1 (fun d => (hdeal d).2) e3
termination_by p => sizeOf p

/-! ### The passes before -/

/-- Plain plans. -/
abbrev PlainAll (p : Plan Row) : Prop := Every (fun _ => Plain) 1 p

theorem plain_node {k tc} {cs : List (Plan Row)} :
    PlainAll (.node k tc cs) ↔ Plain (.node k tc cs) ∧ ∀ c ∈ cs, PlainAll c := by
  refine every_node.trans (and_congr_right fun _ => ⟨fun h c hc => ?_, fun h i c hi => ?_⟩)
  · obtain ⟨i, hi, rfl⟩ := List.getElem_of_mem hc
    exact every_const (h i _ (by simp))
  · exact every_const (h c (List.mem_of_getElem? hi))

theorem plain_strip {p : Plan Row} (h : PlainAll p) : PlainAll (stripCoalesce p) := by
  unfold stripCoalesce
  split
  · exact (plain_node.mp h).2 _ (by simp)
  · exact h

theorem plain_fresh {k : Kind Row} {c : Plan Row} (hk : k.isNet = false) (hc : PlainAll c) : PlainAll (fresh k [c]) :=
  plain_node.mpr ⟨⟨hk, by simp [Plan.children], fun _ => rfl⟩, by simpa using hc⟩

theorem normalize_plainAll : ∀ {p p' : Plan Row}, PlainAll p → normalize env p = .ok p' → PlainAll p'
  | .node k tc cs, p', hp, h => by
    obtain ⟨p1, p2⟩ := plain_node.mp hp
    rw [normalize] at h
    obtain ⟨cs', h1, h⟩ := bind_ok h
    obtain ⟨l, hi⟩ := normalizeAll_inv h1
    have hc : ∀ c ∈ cs', PlainAll c := by
      intro c' hc'
      obtain ⟨i, hi', rfl⟩ := List.getElem_of_mem hc'
      obtain ⟨c, x1, x2⟩ := hi i cs'[i] (by simp)
      have : sizeOf c < sizeOf cs := List.sizeOf_lt_of_mem (List.mem_of_getElem? x1)
      exact normalize_plainAll (p2 c (List.mem_of_getElem? x1)) x2
    have hsame : PlainAll (.node k tc cs') := by
      refine plain_node.mpr ⟨⟨p1.1, fun e => p1.2.1 ?_, fun e => ?_⟩, hc⟩
      · simp only [Plan.children] at e ⊢
        subst e
        exact List.length_eq_zero_iff.mp l.symm
      · have := p1.2.2 e
        simp only [Plan.children] at this ⊢
        omega
    unfold normalizeNode at h
    split at h
    · split at h
      · split at h
        · cases h
        · cases h
          refine plain_node.mpr ⟨⟨rfl, by simp [Plan.children], fun h => by cases h⟩, ?_⟩
          intro c hm
          simp only [List.mem_cons, List.not_mem_nil, or_false] at hm
          rcases hm with rfl | rfl
          · exact plain_fresh rfl (plain_strip (hc _ (by simp)))
          · exact plain_fresh rfl (hc _ (by simp))
      · cases h; exact hsame
    · split at h
      · cases h
        refine plain_node.mpr ⟨⟨rfl, by simp [Plan.children], fun h => by cases h⟩, ?_⟩
        intro c hm
        simp only [List.mem_cons, List.not_mem_nil, or_false] at hm
        rcases hm with rfl | rfl
        · exact hc _ (by simp)
        · exact plain_strip (hc _ (by simp))
      · cases h; exact hsame
    · cases h; exact hsame
termination_by p => sizeOf p

theorem insertBroadcast_plainAll : ∀ {p : Plan Row}, PlainAll p → PlainAll (insertBroadcast p)
  | .node k tc cs, hp => by
    obtain ⟨p1, p2⟩ := plain_node.mp hp
    have hc : ∀ c ∈ cs.map insertBroadcast, PlainAll c := by
      intro c hm
      obtain ⟨x, hx, rfl⟩ := List.mem_map.mp hm
      have : sizeOf x < sizeOf cs := List.sizeOf_lt_of_mem hx
      exact insertBroadcast_plainAll (p2 x hx)
    have hb : ∀ {b : Plan Row}, PlainAll b → PlainAll (broadcastBuild b) := by
      intro b hb
      unfold broadcastBuild
      split
      · exact plain_fresh rfl (plain_fresh rfl ((plain_node.mp hb).2 _ (by simp)))
      · exact plain_fresh rfl (plain_fresh rfl hb)
    rw [insertBroadcast, insertBroadcastAll_eq]
    split
    · rename_i b rest e
      rw [e] at hc
      refine plain_node.mpr ⟨⟨p1.1, ?_, ?_⟩, ?_⟩
      · intro h
        simp only [Plan.children] at h
        split at h <;> cases h
      · intro h
        have := p1.2.2 h
        have hl : cs.length = (b :: rest).length := by rw [← e]; simp
        simp only [Plan.children] at this ⊢
        split <;> simp_all
      · intro c hm
        split at hm
        · rcases List.mem_cons.mp hm with rfl | hm
          · exact hb (hc b (by simp))
          · exact hc c (by simp [hm])
        · exact hc c hm
    · rename_i e
      have : cs = [] := by simpa using e
      subst this
      exact plain_node.mpr ⟨⟨p1.1, fun _ => p1.2.1 rfl, p1.2.2⟩, by simp⟩
termination_by p => sizeOf p

theorem isolateUnions_plainAll : ∀ {p p' : Plan Row}, PlainAll p → isolateUnions p = .ok p' → PlainAll p'
  | .node k tc cs, p', hp, h => by
    obtain ⟨p1, p2⟩ := plain_node.mp hp
    rw [isolateUnions] at h
    obtain ⟨cs', h1, h⟩ := bind_ok h
    obtain ⟨l, hi⟩ := isolateUnionsAll_inv h1
    have hc : ∀ c ∈ cs', PlainAll c := by
      intro c' hc'
      obtain ⟨i, hi', rfl⟩ := List.getElem_of_mem hc'
      obtain ⟨c, x1, x2⟩ := hi i cs'[i] (by simp)
      have : sizeOf c < sizeOf cs := List.sizeOf_lt_of_mem (List.mem_of_getElem? x1)
      exact isolateUnions_plainAll (p2 c (List.mem_of_getElem? x1)) x2
    have hempty : cs' = [] → cs = [] := by
      rintro rfl; exact List.length_eq_zero_iff.mp l.symm
    split at h
    · obtain ⟨n, _, h⟩ := bind_ok h
      cases h
      exact plain_node.mpr ⟨⟨rfl, (fun _ m s e => by cases e), (fun h => by cases h)⟩, hc⟩
    · cases h
      exact plain_node.mpr ⟨⟨p1.1, fun e => p1.2.1 (hempty e), fun e => by have := p1.2.2 e; simp only [Plan.children] at this ⊢; omega⟩, hc⟩
termination_by p => sizeOf p

theorem preparePlan_plain {p p' : Plan Row} (hp : PlainAll p) (h : preparePlan env p = .ok p') : PlainAll p' := by
  unfold preparePlan at h
  obtain ⟨p1, h1, h⟩ := bind_ok h
  have a1 := normalize_plainAll hp h1
  have a2 : PlainAll (if p1.parts > 1 then fresh (.coalesce none) [p1] else p1) := by
    split
    · exact plain_fresh rfl a1
    · exact a1
  generalize (if p1.parts > 1 then fresh (.coalesce none) [p1] else p1) = p2 at *
  have a3 : PlainAll (if env.broadcastJoins then insertBroadcast p2 else p2) := by
    split
    · exact insertBroadcast_plainAll a2
    · exact a2
  generalize hp3 : (if env.broadcastJoins then insertBroadcast p2 else p2) = p3 at *
  simp only [hp3] at h
  split at h
  · exact isolateUnions_plainAll a3 h
  · cases h; exact a3

/-! ### After the boundaries are prepared -/

/-- Visiting a plan in which partial states are merged below shuffles. -/
theorem partialReduce_every {P Q : Nat → Plan Row → Prop}
    (hnode : ∀ t k tc cs, P t (.node k tc cs) → Q t (reduceNode k tc (cs.map partialReduce)))
    (hop : ∀ t r x, Q t (fresh (.op r none) [x])) :
    ∀ {p : Plan Row} {T}, Every P T p → Every Q T (partialReduce p)
  | .node k tc cs, T, h => by
    obtain ⟨h1, h2⟩ := every_node.mp h
    have hc : ∀ (i : Nat) c', (cs.map partialReduce)[i]? = some c' → Every Q (childCount k T i) c' := by
      intro i c' hc'
      rw [List.getElem?_map] at hc'
      obtain ⟨c, e1, rfl⟩ := Option.map_eq_some_iff.mp hc'
      have : sizeOf c < sizeOf cs := List.sizeOf_lt_of_mem (List.mem_of_getElem? e1)
      exact partialReduce_every hnode hop (h2 i c e1)
    have h3 := hnode T k tc cs h1
    rw [partialReduce, partialReduceAll_eq]
    generalize cs.map partialReduce = cs' at *
    unfold reduceNode at h3 ⊢
    split at h3
    · refine every_node.mpr ⟨h3, fun i x hx => ?_⟩
      match i with
      | 0 =>
        simp at hx; subst hx
        exact every_node.mpr ⟨hop _ _ _, fun i x hx => by
          match i with
          | 0 => simp at hx; subst hx; exact hc 0 _ rfl⟩
    · exact every_node.mpr ⟨h3, hc⟩
termination_by p => sizeOf p

theorem reduceNode_shape (k : Kind Row) (tc) (cs : List (Plan Row)) :
    ∃ cs', reduceNode k tc cs = .node k tc cs' ∧ cs'.length = cs.length := by
  unfold reduceNode
  split
  · exact ⟨_, rfl, rfl⟩
  · exact ⟨_, rfl, rfl⟩

theorem NodeOk.congr {t k tc tc'} {cs cs' : List (Plan Row)} (hl : cs'.length = cs.length)
    (h : NodeOk env t (.node k tc cs)) : NodeOk env t (.node k tc' cs') := by
  refine ⟨fun hk => ⟨?_, (h.net hk).2⟩, fun e => by have := h.head e; simp only [Plan.children] at this ⊢; omega, h.pinned, h.gathers,
    fun ws m e i hi => h.branches ws m e i (by simp only [Plan.children] at hi ⊢; omega)⟩
  obtain ⟨c, hc⟩ := (h.net hk).1
  simp only [Plan.children] at hc ⊢
  subst hc
  match cs', hl with
  | [x], _ => exact ⟨x, rfl⟩

theorem pinned_head {k : Kind Row} (hk : k.isHead = true) : pinned env k = false ∧ k.isNet = false := by
  cases k <;> first | exact ⟨rfl, rfl⟩ | cases hk

theorem prepare_nodeOk {p : Plan Row} {t id p' id'} (h : prepare keep p t id = .ok (p', id')) (hp : Every (NodeOk env) t p) :
    Every (NodeOk env) t p' := by
  refine prepare_every ?_ ?_ ?_ h hp
  · intro t k tc cs cs' _ hl h
    exact h.congr hl
  · intro t k tc c hk
    exact .of_plain (pinned_head (env := env) hk).2 (fun _ => rfl) (fun h => by simp only [Plan.kind] at h; rw [(pinned_head hk).1] at h; cases h)
      (fun ws m e => by simp only [Plan.kind] at e; rw [e] at hk; cases hk)
  · intro t k tc c rest id c' c'' hk _ h _ _ _
    refine ⟨fun _ => ⟨⟨c'', rfl⟩, ?_⟩, fun _ => rfl, fun h => ?_, fun p n i e => ?_, fun ws m e => ?_⟩
    · simp only [Plan.kind, withStage_tasks]; exact (h.net hk).2
    · simp only [Plan.kind] at h
      rw [pinned_net (by rw [withStage_isNet]; exact hk)] at h; cases h
    · cases k
      case netCoalesce => exact h.gathers _ _ _ rfl
      all_goals cases e
    · have := withStage_isNet k id
      simp only [Plan.kind] at e
      rw [e, hk] at this; cases this

/-- The stages of `plan`. -/
theorem plan_steps {p p' : Plan Row} (hp : plan env p = .ok (some p')) :
    ∃ p1 p2 p3 id, preparePlan env p = .ok p1 ∧ inject env .root p1 = .ok p2 ∧ prepare false p2 1 1 = .ok (p3, id)
      ∧ hasNet p3 = true ∧ p' = if env.partialReduce then partialReduce p3 else p3 := by
  unfold plan at hp
  obtain ⟨p1, h1, hp⟩ := bind_ok hp
  obtain ⟨p2, h2, hp⟩ := bind_ok hp
  obtain ⟨⟨p3, id⟩, h3, hp⟩ := bind_ok hp
  change (if (!hasNet p3) = true then Except.ok none
    else Except.ok (some (if env.partialReduce = true then partialReduce p3 else p3))) = Except.ok (some p') at hp
  by_cases hn : (!hasNet p3) = true
  · rw [if_pos hn] at hp; cases hp
  · rw [if_neg hn] at hp
    cases hp
    exact ⟨p1, p2, p3, id, h1, h2, h3, by simpa using hn, rfl⟩

theorem plan_nodeOk (he : EnvOk env) (hs : ScalesLeaves env) {p p' : Plan Row} (hu : Undistributed p)
    (hp : plan env p = .ok (some p')) : Every (NodeOk env) 1 p' := by
  obtain ⟨p1, p2, p3, id, h1, h2, h3, _, rfl⟩ := plan_steps hp
  have a := prepare_nodeOk h3 (((inject_shape (D := False) he hs False.elim (preparePlan_plain hu h1) False.elim h2).2 rfl).imp fun _ _ h => h.toNodeOk)
  split
  · refine partialReduce_every ?_ ?_ a
    · intro t k tc cs h
      obtain ⟨cs', e, l⟩ := reduceNode_shape k tc (cs.map partialReduce)
      rw [e]
      exact h.congr (by simpa using l)
    · intro t r x
      exact .of_plain rfl (fun _ => rfl) (fun h => by cases h) (fun _ _ e => by cases e)
  · exact a

end DD.Tree
