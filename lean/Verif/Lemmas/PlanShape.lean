/-
Visiting every node of a plan with its task count.
-/
import Verif.Spec.Shape
import Verif.Lemmas.PlanReduce
import Verif.Lemmas.PlanSource

namespace DD.Tree

variable {Row : Type} {env : Env Row} {keep : Bool}

/-- `P` holds of every node with its task count. -/
def Every (P : Nat → Plan Row → Prop) (T : Nat) (p : Plan Row) : Prop := ∀ t x, At T p t x → P t x

theorem every_node {P : Nat → Plan Row → Prop} {T k tc} {cs : List (Plan Row)} :
    Every P T (.node k tc cs) ↔ P T (.node k tc cs) ∧ ∀ (i : Nat) c, cs[i]? = some c → Every P (childCount k T i) c := by
  constructor
  · exact fun h => ⟨h _ _ .root, fun i c hi t x hx => h t x (.child hi hx)⟩
  · rintro ⟨h1, h2⟩ t x hx
    cases hx with
    | root => exact h1
    | child hi hx => exact h2 _ _ hi t x hx

theorem Every.imp {P Q : Nat → Plan Row → Prop} (h : ∀ t x, P t x → Q t x) {T p} (hp : Every P T p) : Every Q T p :=
  fun t x hx => h t x (hp t x hx)

theorem unionCount_eq {n : Nat} {k : Nat → Nat} {m : Union.TaskMap} (h : Union.RunsAll n k m) {i : Nat} (hi : i < n) :
    unionCount m i = k i := by
  have hmem : ∀ e ∈ m.flatten, e.1 < n ∧ e.2.count = k e.1 := by
    intro e he
    have := Union.mem_childTasks.mp (h.2.mem_iff.mp he)
    exact ⟨this.1, this.2.2⟩
  have hin : ((i, ⟨0, k i⟩) : Union.Entry) ∈ m.flatten :=
    h.2.mem_iff.mpr (Union.mem_childTasks.mpr ⟨hi, h.1 i hi, rfl⟩)
  unfold unionCount
  obtain ⟨h1, h2⟩ := le_foldl_max ((m.flatten.filter fun e => e.1 == i).map fun e => e.2.count) 0
  apply Nat.le_antisymm
  · have : ∀ (l : List Nat) a, a ≤ k i → (∀ x ∈ l, x = k i) → l.foldl max a ≤ k i := by
      intro l
      induction l with
      | nil => intro a ha _; exact ha
      | cons b l ih =>
        intro a ha hl
        refine ih _ ?_ fun x hx => hl x (List.mem_cons_of_mem _ hx)
        have := hl b (List.mem_cons_self ..)
        omega
    refine this _ 0 (Nat.zero_le _) ?_
    intro x hx
    simp only [List.mem_map, List.mem_filter, beq_iff_eq] at hx
    obtain ⟨e, ⟨he, rfl⟩, rfl⟩ := hx
    exact (hmem e he).2
  · apply h2
    simp only [List.mem_map, List.mem_filter, beq_iff_eq]
    exact ⟨_, ⟨hin, rfl⟩, rfl⟩

theorem foldl_bump (es : List Union.Entry) : ∀ (acc : List Nat),
    (es.foldl Union.bump acc).length = acc.length ∧ ∀ i < acc.length,
      (es.foldl Union.bump acc)[i]? = some (((es.filter fun e => e.1 == i).map fun e => e.2.count).foldl max (acc.getD i 0)) := by
  induction es with
  | nil => intro acc; refine ⟨rfl, fun i hi => ?_⟩; simp [hi]
  | cons e es ih =>
    intro acc
    have hb : Union.bump acc e = if e.1 < acc.length then acc.set e.1 (max (acc.getD e.1 0) e.2.count) else acc := by
      unfold Union.bump
      split
      · rename_i v hv
        have := (List.getElem?_eq_some_iff.mp hv)
        rw [if_pos this.1, List.getD_eq_getElem?_getD, hv]; rfl
      · rename_i hv
        rw [if_neg]
        simpa using hv
    have hl : (Union.bump acc e).length = acc.length := by rw [hb]; split <;> simp
    obtain ⟨i1, i2⟩ := ih (Union.bump acc e)
    refine ⟨by simpa [hl] using i1, fun i hi => ?_⟩
    rw [List.foldl_cons, i2 i (by omega)]
    congr 1
    rw [List.filter_cons]
    by_cases he : e.1 = i
    · subst he
      simp only [beq_self_eq_true, if_true, List.map_cons, List.foldl_cons]
      congr 1
      rw [hb, if_pos hi]
      simp [List.getD_eq_getElem?_getD, hi]
    · have : (e.1 == i) = false := by simpa using he
      simp only [this, Bool.false_eq_true, if_false]
      congr 1
      rw [hb]
      split
      · simp [List.getD_eq_getElem?_getD, List.getElem?_set, he]
      · rfl

/-- The counts the traversals hand down are those of the specification. -/
theorem childCounts_eq (k : Kind Row) (T n : Nat) : childCounts k T n = (List.range n).map (childCount k T) := by
  apply List.ext_getElem?
  intro i
  rw [List.getElem?_map]
  by_cases hi : i < n
  · rw [List.getElem?_range hi]
    show _ = some (childCount k T i)
    cases k
    case ciu ws m =>
      unfold childCounts childCount
      simp only
      rw [Union.childTaskCounts_eq]
      simp only [List.length_replicate]
      rw [(foldl_bump m.flatten (List.replicate n 0)).2 i (by simpa using hi)]
      simp [unionCount, List.getD_eq_getElem?_getD, hi]
    all_goals simp [childCounts, childCount, Kind.isNet, Kind.tasks, hi]
  · have : (childCounts k T n).length ≤ i := by
      cases k
      case ciu ws m =>
        unfold childCounts
        simp only
        rw [Union.childTaskCounts_eq]
        simp only [List.length_replicate]
        rw [(foldl_bump m.flatten (List.replicate n 0)).1]
        simpa using hi
      all_goals
        simp only [childCounts]
        split <;> simpa using hi
    rw [List.getElem?_eq_none this, List.getElem?_eq_none (by simpa using hi)]; rfl

theorem childCount_net {k : Kind Row} (hk : k.isNet = true) (T i : Nat) : childCount k T i = k.tasks := by
  cases k <;> first | rfl | cases hk

theorem childCount_same {k : Kind Row} (hk : k.isNet = false) (hc : ∀ ws m, k ≠ .ciu ws m) (T i : Nat) :
    childCount k T i = T := by
  cases k
  case ciu ws m => exact absurd rfl (hc ws m)
  all_goals first | rfl | cases hk

/-- Inversion of `prepareAll`. -/
theorem prepareAll_inv : ∀ {cs cs' : List (Plan Row)} {ts : List Nat} {id id'}, ts.length = cs.length →
    prepareAll keep cs ts id = .ok (cs', id') →
    cs'.length = cs.length ∧ ∀ (i : Nat) c', cs'[i]? = some c' →
      ∃ c t a b, cs[i]? = some c ∧ ts[i]? = some t ∧ prepare keep c t a = .ok (c', b)
  | [], cs', ts, id, id', _, h => by rw [prepareAll] at h; cases h; simp
  | c :: cs, cs', [], id, id', hl, h => by simp at hl
  | c :: cs, cs', t :: ts, id, id', hl, h => by
    rw [prepareAll] at h
    obtain ⟨⟨c1, id1⟩, h1, h⟩ := bind_ok h
    obtain ⟨⟨cs1, id2⟩, h2, h⟩ := bind_ok h
    cases h
    obtain ⟨i1, i2⟩ := prepareAll_inv (by simpa using hl) h2
    refine ⟨by simp [i1], ?_⟩
    intro i x hx
    cases i with
    | zero => simp at hx; subst hx; exact ⟨c, t, _, _, rfl, rfl, h1⟩
    | succ i =>
      obtain ⟨y, t', a, b, e1, e2, e3⟩ := i2 i x (by simpa using hx)
      exact ⟨y, t', a, b, by simpa using e1, by simpa using e2, e3⟩

theorem prepare_inv {k tc} {cs : List (Plan Row)} {t id p' id'} (h : prepare keep (.node k tc cs) t id = .ok (p', id')) :
    ∃ cs' id1, prepareAll keep cs ((List.range cs.length).map (childCount k t)) id = .ok (cs', id1) ∧ cs'.length = cs.length
      ∧ (∀ (i : Nat) c', cs'[i]? = some c' → ∃ c a b, cs[i]? = some c ∧ prepare keep c (childCount k t i) a = .ok (c', b))
      ∧ prepareNode keep (.node k tc cs') t id1 = .ok (p', id') := by
  rw [prepare] at h
  obtain ⟨⟨cs', id1⟩, h1, h2⟩ := bind_ok h
  rw [childCounts_eq] at h1
  obtain ⟨l, i2⟩ := prepareAll_inv (by simp) h1
  refine ⟨cs', id1, h1, l, ?_, h2⟩
  intro i c' hc'
  obtain ⟨c, t', a, b, e1, e2, e3⟩ := i2 i c' hc'
  have hi := (List.getElem?_eq_some_iff.mp e1).1
  rw [List.getElem?_map, List.getElem?_range hi] at e2
  cases e2
  exact ⟨c, a, b, e1, e3⟩

/-- Induction over a prepared plan: `P` holds of everything in it if it holds of the nodes `prepare` leaves
alone and of the boundaries it makes. -/
theorem prepareNode_inv {k : Kind Row} {tc} {cs : List (Plan Row)} {t id p' id'}
    (h : prepareNode keep (.node k tc cs) t id = .ok (p', id')) :
    (k.isNet = false ∨ cs = []) ∧ p' = .node k tc cs ∧ id' = id
    ∨ ∃ c rest, cs = c :: rest ∧ k.isNet = true ∧
      ((keep = false ∧ t = 1 ∧ k.tasks = 1 ∧ p' = c ∧ id' = id)
       ∨ (¬ (keep = false ∧ t = 1 ∧ k.tasks = 1) ∧ ∃ c', (k.head t).insert c = .ok c' ∧ p' = .node (k.withStage id) tc [c'] ∧ id' = id + 1)) := by
  cases cs with
  | nil => cases h; exact .inl ⟨.inr rfl, rfl, rfl⟩
  | cons c rest =>
    cases hk : k.isNet with
    | false =>
      simp only [prepareNode, hk, Bool.not_false, if_true] at h
      cases h
      exact .inl ⟨.inl rfl, rfl, rfl⟩
    | true =>
      refine .inr ⟨c, rest, rfl, rfl, ?_⟩
      simp only [prepareNode, hk, Bool.not_true, Bool.false_eq_true, if_false] at h
      split at h
      · rename_i h1
        cases h
        exact .inl ⟨h1.1, h1.2.1, h1.2.2, rfl, rfl⟩
      · rename_i h1
        obtain ⟨c', h2, h3⟩ := bind_ok h
        cases h3
        exact .inr ⟨h1, c', h2, rfl, rfl⟩

theorem withStage_tasks (k : Kind Row) (i : Nat) : (k.withStage i).tasks = k.tasks := by cases k <;> rfl
theorem withStage_isNet (k : Kind Row) (i : Nat) : (k.withStage i).isNet = k.isNet := by cases k <;> rfl
theorem withStage_num {k : Kind Row} (hk : k.isNet = true) (i : Nat) : (k.withStage i).num = i := by
  cases k <;> first | rfl | cases hk

/-- What `ProducerHead::insert` makes of a plan. -/
theorem insert_inv {hd : Head Row} {c c' : Plan Row} (h : hd.insert c = .ok c') :
    (hd = .none ∧ c' = strip c) ∨ (∃ f n, hd = .repartition f n ∧ c' = .node (.hashRepart f n Option.none) c.tc [strip c])
    ∨ (∃ n, hd = .broadcast n ∧ (strip c).parts ≠ 0 ∧ c' = .node (.broadcast (n / (strip c).parts)) c.tc [strip c]) := by
  cases hd with
  | none => cases h; exact .inl ⟨rfl, rfl⟩
  | repartition f n => cases h; exact .inr (.inl ⟨f, n, rfl, rfl⟩)
  | broadcast n =>
    refine .inr (.inr ⟨n, rfl, ?_⟩)
    change (do
      let b ← BroadcastExec.ofHead (strip c).parts n
      Except.ok (Plan.node (.broadcast b.consumerTasks) c.tc [strip c])) = Except.ok c' at h
    unfold BroadcastExec.ofHead at h
    by_cases h0 : (strip c).parts = 0
    · rw [if_pos h0] at h; cases h
    · rw [if_neg h0] at h; cases h
      exact ⟨h0, rfl⟩

/-- `strip` gives the plan itself or its first child. -/
theorem strip_cases (c : Plan Row) : strip c = c ∨ (c.kind.isHead = true ∧ ∃ x rest, c.children = x :: rest ∧ strip c = x) := by
  cases c with
  | node k tc cs =>
    cases cs with
    | nil => exact .inl rfl
    | cons x rest =>
      cases hk : k.isHead with
      | false => simp [strip, hk]
      | true => exact .inr ⟨hk, x, rest, rfl, by simp [strip, hk]⟩

theorem Every.strip {P : Nat → Plan Row → Prop} {T} {c : Plan Row} (h : Every P T c) : Every P T (strip c) := by
  rcases strip_cases c with e | ⟨hk, x, rest, e, e'⟩
  · rw [e]; exact h
  · rw [e']
    cases c with
    | node k tc cs =>
      simp only [Plan.children] at e
      subst e
      have := (every_node.mp h).2 0 x rfl
      have hc : childCount k T 0 = T := by
        cases k <;> first | rfl | cases hk
      rwa [hc] at this

/-- Visiting a prepared plan. -/
theorem prepare_every {P Q : Nat → Plan Row → Prop}
    (hplain : ∀ t k tc cs cs', k.isNet = false ∨ cs' = [] → cs'.length = cs.length → P t (.node k tc cs) → Q t (.node k tc cs'))
    (hhead : ∀ t k tc c, k.isHead = true → Q t (.node k tc [c]))
    (hnet : ∀ t k tc c rest id c' c'', k.isNet = true → ¬ (keep = false ∧ t = 1 ∧ k.tasks = 1) → P t (.node k tc (c :: rest)) →
      Every P k.tasks c → (∃ a b, prepare keep c k.tasks a = .ok (c', b)) → (k.head t).insert c' = .ok c'' → Q t (.node (k.withStage id) tc [c''])) :
    ∀ {p : Plan Row} {t id p' id'}, prepare keep p t id = .ok (p', id') → Every P t p → Every Q t p'
  | .node k tc cs, t, id, p', id', h, hp => by
    obtain ⟨cs', id1, _, l, h1, h2⟩ := prepare_inv h
    obtain ⟨p1, p2⟩ := every_node.mp hp
    have hQ : ∀ (i : Nat) c', cs'[i]? = some c' → Every Q (childCount k t i) c' := by
      intro i c' hc'
      obtain ⟨c, a, b, e1, e2⟩ := h1 i c' hc'
      have : sizeOf c < sizeOf cs := List.sizeOf_lt_of_mem (List.mem_of_getElem? e1)
      exact prepare_every hplain hhead hnet e2 (p2 i c e1)
    rcases prepareNode_inv h2 with ⟨hk, rfl, _⟩ | ⟨c', rest, rfl, hk, h3⟩
    · exact every_node.mpr ⟨hplain t k tc cs cs' hk l p1, hQ⟩
    · have hc := hQ 0 c' rfl
      rcases h3 with ⟨_, ht, hkt, rfl, _⟩ | ⟨hne, c'', h3, rfl, _⟩
      · rw [childCount_net hk, hkt] at hc
        rw [ht]; exact hc
      · obtain ⟨c, rest', rfl⟩ : ∃ c rest', cs = c :: rest' := by
          cases cs with
          | nil => simp at l
          | cons c r => exact ⟨c, r, rfl⟩
        refine every_node.mpr ⟨hnet t k tc c rest' id1 c' c'' hk hne p1 (childCount_net hk t 0 ▸ p2 0 c rfl) ?_ h3, ?_⟩
        · obtain ⟨c0, a, b, e1, e2⟩ := h1 0 c' rfl
          cases e1
          rw [childCount_net hk] at e2
          exact ⟨a, b, e2⟩
        intro i x hx
        match i with
        | 0 =>
          simp at hx; subst hx
          rw [childCount_net (by rw [withStage_isNet]; exact hk), withStage_tasks]
          rw [childCount_net hk] at hc
          rcases insert_inv h3 with ⟨_, rfl⟩ | ⟨f, n, _, rfl⟩ | ⟨n, _, _, rfl⟩
          · exact hc.strip
          · refine every_node.mpr ⟨hhead _ _ _ _ rfl, ?_⟩
            intro i x hx
            match i with
            | 0 => simp at hx; subst hx; exact hc.strip
          · refine every_node.mpr ⟨hhead _ _ _ _ rfl, ?_⟩
            intro i x hx
            match i with
            | 0 => simp at hx; subst hx; exact hc.strip
termination_by p => sizeOf p

end DD.Tree
