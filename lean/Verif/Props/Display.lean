/-
C67: the text of EXPLAIN shows every stage of the plan.
C68: the edges of the drawing are the flows of data between the tasks.
-/
import Verif.Spec.Display
import Verif.Props.Plan

namespace DD.Display

open DD.Tree DD.Metrics

variable {Row : Type}

/-! ### The text -/

/-- What is shown of a stage, apart from the indentation. -/
def stageView (b : Plan Row) : Option Nat × Nat × List Path :=
  (some b.kind.num, b.kind.tasks, nodes (b.children.headD b))

def Block.view (b : Block) : Option Nat × Nat × List Path := (b.stage, b.tasks, b.nodes)

theorem held_child {k : Kind Row} {tc : TaskCount} {cs : List (Plan Row)} (h : Held (.node k tc cs)) :
    ∀ c ∈ cs, Held c := by
  intro c hc d b hb
  cases hk : k.isNet with
  | true => exact h (d + 1) b (.deeper d k tc cs c hk hc hb)
  | false => exact h d b (.same d k tc cs c hk hc hb)

mutual
theorem below_view : ∀ (d : Nat) (p : Plan Row), p.kind.isNet = false → (∀ c ∈ p.children, Held c) →
    (below d p).map Block.view = (boundaries p).map stageView
  | d, .node k tc cs, hk, h => by
    have hk' : k.isNet = false := hk
    rw [below, boundaries, hk', belowAll_view d cs h]
    simp
theorem belowAll_view : ∀ (d : Nat) (cs : List (Plan Row)), (∀ c ∈ cs, Held c) →
    (belowAll d cs).map Block.view = (boundariesAll cs).map stageView
  | _, [], _ => by simp [belowAll, boundariesAll]
  | d, c :: cs, h => by
    rw [belowAll, boundariesAll, List.map_append, List.map_append, stageOf_view d c (h c (List.mem_cons_self ..)),
      belowAll_view d cs fun x hx => h x (List.mem_cons_of_mem _ hx)]
theorem stageOf_view : ∀ (d : Nat) (p : Plan Row), Held p → (stageOf d p).map Block.view = (boundaries p).map stageView
  | d, .node k tc [], h => by
    rw [stageOf, boundaries]
    cases hk : k.isNet with
    | false => simp [boundariesAll]
    | true =>
      obtain ⟨c, hc, -⟩ := h 1 _ (.here hk)
      simp [Plan.children] at hc
  | d, .node k tc (c :: cs), h => by
    rw [stageOf, boundaries]
    cases hk : k.isNet with
    | false =>
      simp only [Bool.false_eq_true, if_false, List.nil_append]
      rw [belowAll, boundariesAll, List.map_append, List.map_append,
        stageOf_view d c (held_child h c (List.mem_cons_self ..)),
        belowAll_view d cs fun x hx => held_child h x (List.mem_cons_of_mem _ hx)]
    | true =>
      obtain ⟨c', hc, hn⟩ := h 1 _ (.here hk)
      have : c = c' ∧ cs = [] := by simpa [Plan.children] using hc
      obtain ⟨rfl, rfl⟩ := this
      have hb := below_view (d + 1) c hn (by
        cases c with
        | node k' tc' cs' => exact fun x hx => held_child (held_child h _ (List.mem_cons_self ..)) x hx)
      simp only [if_true, List.map_cons, List.map_append, boundariesAll, List.append_nil]
      rw [hb]
      rfl
end

/-- **C67.** If no stage begins with a boundary, EXPLAIN shows the head stage, and then every stage of the plan exactly once
(as often as the plan has it), with its number, its number of tasks and all its nodes. -/
theorem C67_every_stage_is_shown_partial (p : Plan Row) (root : p.kind.isNet = false) (h : Held p) :
    (display p).map Block.view =
      (none, 1, nodes p) :: (boundaries p).map stageView := by
  have : ∀ c ∈ p.children, Held c := by
    cases p with
    | node k tc cs => exact fun c hc => held_child h c hc
  rw [display, List.map_cons, below_view 1 p root this]
  rfl

/-! The indentation. -/

theorem stageIn_pos {b : Plan Row} {d : Nat} {p : Plan Row} (h : StageIn b d p) : 0 < d := by
  induction h with
  | here => exact Nat.one_pos
  | deeper => exact Nat.succ_pos _
  | same _ _ _ _ _ _ _ _ ih => exact ih

mutual
theorem mem_below : ∀ (d : Nat) (p : Plan Row) (x : Block), p.kind.isNet = false → (∀ c ∈ p.children, Held c) →
    (x ∈ below (d + 1) p ↔ ∃ e b, StageIn b (e + 1) p ∧ x = ⟨d + e + 1, some b.kind.num, b.kind.tasks, nodes (b.children.headD b)⟩)
  | d, .node k tc cs, x, hk, h => by
    have hk' : k.isNet = false := hk
    rw [below, mem_belowAll d cs x h]
    constructor
    · rintro ⟨e, b, c, hc, hb, rfl⟩
      exact ⟨e, b, .same _ k tc cs c hk' hc hb, rfl⟩
    · rintro ⟨e, b, hb, rfl⟩
      generalize hn : e + 1 = n at hb
      cases hb with
      | here hb => rw [show (Plan.node k tc cs).kind = k from rfl, hk'] at hb; cases hb
      | deeper _ _ _ _ c hb => rw [hk'] at hb; cases hb
      | same _ _ _ _ c _ hc hb => exact ⟨e, b, c, hc, hn ▸ hb, rfl⟩
theorem mem_belowAll : ∀ (d : Nat) (cs : List (Plan Row)) (x : Block), (∀ c ∈ cs, Held c) →
    (x ∈ belowAll (d + 1) cs ↔
      ∃ e b, ∃ c ∈ cs, StageIn b (e + 1) c ∧ x = ⟨d + e + 1, some b.kind.num, b.kind.tasks, nodes (b.children.headD b)⟩)
  | _, [], x, _ => by simp [belowAll]
  | d, c :: cs, x, h => by
    rw [belowAll, List.mem_append, mem_stageOf d c x (h c (List.mem_cons_self ..)),
      mem_belowAll d cs x fun y hy => h y (List.mem_cons_of_mem _ hy)]
    constructor
    · rintro (⟨e, b, hb, hx⟩ | ⟨e, b, y, hy, hb, hx⟩)
      · exact ⟨e, b, c, List.mem_cons_self .., hb, hx⟩
      · exact ⟨e, b, y, List.mem_cons_of_mem _ hy, hb, hx⟩
    · rintro ⟨e, b, y, hy, hb, hx⟩
      rcases List.mem_cons.1 hy with rfl | hy
      · exact .inl ⟨e, b, hb, hx⟩
      · exact .inr ⟨e, b, y, hy, hb, hx⟩
theorem mem_stageOf : ∀ (d : Nat) (p : Plan Row) (x : Block), Held p →
    (x ∈ stageOf (d + 1) p ↔ ∃ e b, StageIn b (e + 1) p ∧ x = ⟨d + e + 1, some b.kind.num, b.kind.tasks, nodes (b.children.headD b)⟩)
  | d, .node k tc [], x, h => by
    rw [stageOf]
    cases hk : k.isNet with
    | false =>
      simp only [Bool.false_eq_true, if_false, List.not_mem_nil, false_iff]
      rintro ⟨e, b, hb, -⟩
      generalize e + 1 = n at hb
      cases hb with
      | here hb => rw [show (Plan.node k tc []).kind = k from rfl, hk] at hb; cases hb
      | deeper _ _ _ _ c _ hc => simp at hc
      | same _ _ _ _ c _ hc => simp at hc
    | true =>
      obtain ⟨c, hc, -⟩ := h 1 _ (.here hk)
      simp [Plan.children] at hc
  | d, .node k tc (c :: cs), x, h => by
    rw [stageOf]
    cases hk : k.isNet with
    | false =>
      simp only [Bool.false_eq_true, if_false]
      rw [belowAll, List.mem_append, mem_stageOf d c x (held_child h c (List.mem_cons_self ..)),
        mem_belowAll d cs x fun y hy => held_child h y (List.mem_cons_of_mem _ hy)]
      constructor
      · rintro (⟨e, b, hb, hx⟩ | ⟨e, b, y, hy, hb, hx⟩)
        · exact ⟨e, b, .same _ k tc _ c hk (List.mem_cons_self ..) hb, hx⟩
        · exact ⟨e, b, .same _ k tc _ y hk (List.mem_cons_of_mem _ hy) hb, hx⟩
      · rintro ⟨e, b, hb, hx⟩
        generalize hn : e + 1 = n at hb
        cases hb with
        | here hb => rw [show (Plan.node k tc (c :: cs)).kind = k from rfl, hk] at hb; cases hb
        | deeper _ _ _ _ _ hb => rw [hk] at hb; cases hb
        | same _ _ _ _ y _ hy hb =>
          rcases List.mem_cons.1 hy with rfl | hy
          · exact .inl ⟨e, b, hn ▸ hb, hx⟩
          · exact .inr ⟨e, b, y, hy, hn ▸ hb, hx⟩
    | true =>
      obtain ⟨c', hc, hn⟩ := h 1 _ (.here hk)
      have : c = c' ∧ cs = [] := by simpa [Plan.children] using hc
      obtain ⟨rfl, rfl⟩ := this
      have hbl := mem_below (d + 1) c x hn (by
        cases c with
        | node k' tc' cs' => exact fun y hy => held_child (held_child h _ (List.mem_cons_self ..)) y hy)
      simp only [if_true]
      rw [List.mem_cons, hbl]
      clear hbl
      constructor
      · rintro (rfl | ⟨e, b, hb, rfl⟩)
        · exact ⟨0, _, .here hk, rfl⟩
        · exact ⟨e + 1, b, .deeper _ k tc _ c hk (List.mem_cons_self ..) hb, by rw [show d + (e + 1) + 1 = d + 1 + e + 1 by omega]⟩
      · rintro ⟨e, b, hb, rfl⟩
        generalize hm : e + 1 = n at hb
        cases hb with
        | here => exact .inl (by rw [show e = 0 by omega]; rfl)
        | deeper n _ _ _ y _ hy hb =>
          have : y = c := by simpa using hy
          subst this
          cases n with
          | zero => exact absurd (stageIn_pos hb) (Nat.lt_irrefl 0)
          | succ n => exact .inr ⟨n, b, hb, by rw [show e = n + 1 by omega, show d + (n + 1) + 1 = d + 1 + n + 1 by omega]⟩
        | same _ _ _ _ _ hb => rw [hk] at hb; cases hb
end

/-- **C67.** A stage is indented by as many steps as there are boundaries between it and the head stage. -/
theorem C67_indentation_partial (p : Plan Row) (root : p.kind.isNet = false) (h : Held p) (x : Block) :
    x ∈ display p ↔ x = ⟨0, none, 1, nodes p⟩ ∨
      ∃ d b, StageIn b d p ∧ x = ⟨d, some b.kind.num, b.kind.tasks, nodes (b.children.headD b)⟩ := by
  have hc : ∀ c ∈ p.children, Held c := by
    cases p with
    | node k tc cs => exact fun c hc => held_child h c hc
  rw [display, List.mem_cons, mem_below 0 p x root hc]
  constructor
  · rintro (hx | ⟨e, b, hb, rfl⟩)
    · exact .inl hx
    · exact .inr ⟨e + 1, b, hb, by rw [Nat.zero_add]⟩
  · rintro (hx | ⟨d, b, hb, rfl⟩)
    · exact .inl hx
    · obtain ⟨e, rfl⟩ : ∃ e, d = e + 1 := ⟨d - 1, by have := stageIn_pos hb; omega⟩
      exact .inr ⟨e, b, hb, by rw [Nat.zero_add]⟩

/-! ### The drawing -/

theorem sizeAll_append (a b : List (Plan Row)) : sizeAll (a ++ b) = sizeAll a + sizeAll b := by
  induction a with
  | nil => simp [sizeAll]
  | cons c cs ih => simp [sizeAll, ih]; omega

/-- The queue takes every node of the stage. -/
theorem mem_bfs (x : Plan Row) : ∀ (n : Nat) (q : List (Plan Row)), sizeAll q ≤ n →
    (x ∈ bfs Kind.isNet n q ↔ ∃ p ∈ q, InStage x p)
  | 0, [], _ => by simp [bfs]
  | 0, .node k tc cs :: q, h => by simp [sizeAll, size] at h
  | n + 1, [], _ => by simp [bfs]
  | n + 1, .node k tc cs :: q, h => by
    have hs : sizeAll (q ++ if k.isNet then [] else cs) ≤ n := by
      rw [sizeAll_append]
      cases hk : k.isNet <;> simp [sizeAll, size] at h ⊢ <;> omega
    rw [bfs, List.mem_cons]
    show x = .node k tc cs ∨ x ∈ bfs Kind.isNet n (q ++ if k.isNet then [] else cs) ↔ _
    rw [mem_bfs x n _ hs]
    cases hk : k.isNet with
    | true =>
      simp only [if_true, List.append_nil]
      constructor
      · rintro (rfl | ⟨p, hp, hx⟩)
        · exact ⟨_, List.mem_cons_self .., .here⟩
        · exact ⟨p, List.mem_cons_of_mem _ hp, hx⟩
      · rintro ⟨p, hp, hx⟩
        rcases List.mem_cons.1 hp with rfl | hp
        · cases hx with
          | here => exact .inl rfl
          | child _ _ _ _ hf => rw [hk] at hf; cases hf
        · exact .inr ⟨p, hp, hx⟩
    | false =>
      simp only [Bool.false_eq_true, if_false]
      constructor
      · rintro (rfl | ⟨p, hp, hx⟩)
        · exact ⟨_, List.mem_cons_self .., .here⟩
        · rcases List.mem_append.1 hp with hp | hp
          · exact ⟨p, List.mem_cons_of_mem _ hp, hx⟩
          · exact ⟨_, List.mem_cons_self .., .child k tc cs p hk hp hx⟩
      · rintro ⟨p, hp, hx⟩
        rcases List.mem_cons.1 hp with rfl | hp
        · cases hx with
          | here => exact .inl rfl
          | child _ _ _ c _ hc hx => exact .inr ⟨c, List.mem_append_right _ hc, hx⟩
        · exact .inr ⟨p, List.mem_append_left _ hp, hx⟩

/-- **C68.** The nodes drawn for a task are those of its stage. -/
theorem C68_nodes_of_the_stage (p x : Plan Row) : x ∈ drawn p ↔ InStage x p := by
  rw [drawn, mem_bfs x _ _ (by simp [sizeAll])]
  simp

mutual
theorem mem_inputStages (b : Plan Row) : ∀ p : Plan Row, p.kind.isNet = false →
    (b ∈ inputStages p ↔ b.kind.isNet = true ∧ InStage b p)
  | .node k tc cs, hk => by
    have hk' : k.isNet = false := hk
    rw [inputStages, mem_inputStagesAll b cs]
    constructor
    · rintro ⟨hb, c, hc, hx⟩
      exact ⟨hb, .child k tc cs c hk' hc hx⟩
    · rintro ⟨hb, hx⟩
      cases hx with
      | here => rw [show (Plan.node k tc cs).kind = k from rfl, hk'] at hb; cases hb
      | child _ _ _ c _ hc hx => exact ⟨hb, c, hc, hx⟩
theorem mem_inputStagesAll (b : Plan Row) : ∀ cs : List (Plan Row),
    (b ∈ inputStagesAll cs ↔ b.kind.isNet = true ∧ ∃ c ∈ cs, InStage b c)
  | [] => by simp [inputStagesAll]
  | c :: cs => by
    have hone : b ∈ (if c.kind.isNet then [c] else inputStages c) ↔ b.kind.isNet = true ∧ InStage b c := by
      cases hc : c.kind.isNet with
      | false => simpa using mem_inputStages b c hc
      | true =>
        simp only [if_true, List.mem_singleton]
        constructor
        · rintro rfl; exact ⟨hc, .here⟩
        · rintro ⟨-, hx⟩
          cases hx with
          | here => rfl
          | child k _ _ _ hf => rw [show (Plan.node k _ _).kind = k from rfl] at hc; rw [hc] at hf; cases hf
    rw [inputStagesAll, List.mem_append, hone, mem_inputStagesAll b cs]
    constructor
    · rintro (⟨hb, hx⟩ | ⟨hb, y, hy, hx⟩)
      · exact ⟨hb, c, List.mem_cons_self .., hx⟩
      · exact ⟨hb, y, List.mem_cons_of_mem _ hy, hx⟩
    · rintro ⟨hb, y, hy, hx⟩
      rcases List.mem_cons.1 hy with rfl | hy
      · exact .inl ⟨hb, hx⟩
      · exact .inr ⟨hb, y, hy, hx⟩
end

theorem bfs_congr (f g : Kind Row → Bool) : ∀ (n : Nat) (q : List (Plan Row)),
    (∀ x ∈ bfs f n q, f x.kind = g x.kind) → bfs f n q = bfs g n q
  | 0, _, _ => by simp [bfs]
  | n + 1, [], _ => by simp [bfs]
  | n + 1, p :: q, h => by
    rw [bfs, bfs, ← h p (by rw [bfs]; exact List.mem_cons_self ..),
      bfs_congr f g n _ fun x hx => h x (by rw [bfs]; exact List.mem_cons_of_mem _ hx)]

/-- The kinds whose edges are drawn. -/
def Drawable (tasks : Nat) (k : Kind Row) : Prop :=
  match k with
  | .netBroadcast .. => False
  | .netCoalesce .. => tasks = 1
  | _ => True

theorem met_drawn (tasks : Nat) (p : Plan Row) (h : ∀ x, InStage x p → Drawable tasks x.kind) : met p = drawn p := by
  unfold met drawn
  symm
  apply bfs_congr
  intro x hx
  have := h x ((C68_nodes_of_the_stage p x).1 hx)
  cases hk : x.kind <;> rw [hk] at this <;> simp_all [Kind.isNet, Drawable]

/-- One node: its edges are its reads, for every task of its input stage. -/
theorem edgesAt_reads (s t tasks index : Nat) (b : Plan Row) (ht : t < tasks) (hd : Drawable tasks b.kind) (i : Nat)
    (hi : i < b.kind.tasks) (num : Nat) (e : Edge) :
    e ∈ edgesAt s t num i index b ↔
      b.kind.isNet = true ∧ b.kind.num = num ∧ ∃ q pull, q < outParts b.kind ∧ Reads b.kind ⟨t, tasks⟩ q pull ∧ pull.task = i ∧
        e = ⟨⟨b.kind.num, pull.task, 1, pull.partition⟩, ⟨s, t, index, q⟩⟩ := by
  unfold edgesAt
  cases hk : b.kind with
  | shuffle h out n num' =>
    rw [hk] at hi
    simp only [Kind.isNet, Kind.num, outParts, Reads, FanExec.execute, List.mem_map, List.mem_range, true_and]
    by_cases hn : num' = num
    · subst hn
      simp only [ne_eq, not_true_eq_false, if_false, List.mem_map, List.mem_range, true_and]
      constructor
      · rintro ⟨q, hq, rfl⟩
        refine ⟨q, ⟨i, out * t + q, out * t, out * t + out⟩, hq, ⟨i, hi, rfl⟩, rfl, ?_⟩
        simp [Nat.mul_comm, Nat.add_comm]
      · rintro ⟨q, pull, hq, ⟨j, hj, rfl⟩, rfl, rfl⟩
        exact ⟨q, hq, by simp [Nat.mul_comm, Nat.add_comm]⟩
    · simp [hn]
  | netCoalesce out n num' =>
    rw [hk] at hi hd
    have hT : tasks = 1 := hd
    subst hT
    have ht0 : t = 0 := by omega
    subst ht0
    have hi' : i < n := hi
    have hc : max (divCeil n 1) 1 = n := by simp [divCeil]; omega
    have hg : taskGroup n 0 1 = ⟨0, n, n⟩ := by simp [taskGroup, Nat.mod_one]
    simp only [Kind.isNet, Kind.num, outParts, Reads, true_and]
    by_cases hn : num' = num
    · subst hn
      simp only [ne_eq, not_true_eq_false, if_false, List.mem_map, List.mem_range, true_and]
      constructor
      · rintro ⟨q, hq, rfl⟩
        have hpos : 0 < out / n := by omega
        refine ⟨q + i * (out / n), ⟨i, q, 0, out / n⟩, ?_, ?_, rfl, rfl⟩
        · calc q + i * (out / n) < out / n + i * (out / n) := by omega
            _ = (i + 1) * (out / n) := by rw [Nat.add_mul, Nat.one_mul, Nat.add_comm]
            _ ≤ n * (out / n) := Nat.mul_le_mul_right _ hi'
            _ ≤ out := Nat.mul_div_le out n
        · have h1 : (q + i * (out / n)) / (out / n) = i := by
            rw [Nat.add_mul_div_right _ _ hpos, Nat.div_eq_of_lt hq, Nat.zero_add]
          have h2 : (q + i * (out / n)) % (out / n) = q := by
            rw [Nat.add_mul_mod_self_right, Nat.mod_eq_of_lt hq]
          refine ⟨_, ?_, List.mem_singleton.2 rfl⟩
          simp only [CoalesceExec.execute, hc, hg, h1, h2]
          rw [if_neg (by omega), if_neg (by omega), if_neg (by omega), if_neg (by omega)]
          simp
      · rintro ⟨q, pull, hq, ⟨l, hl, hm⟩, rfl, rfl⟩
        simp only [CoalesceExec.execute, hc, hg] at hl
        rw [if_neg (by omega)] at hl
        by_cases h0 : out / n = 0
        · rw [if_pos h0] at hl; cases hl
        · rw [if_neg h0] at hl
          by_cases ho : q / (out / n) ≥ n
          · rw [if_pos ho] at hl; cases hl; cases hm
          · rw [if_neg ho, if_neg ho] at hl
            cases hl
            have := List.mem_singleton.1 hm
            subst this
            refine ⟨q % (out / n), Nat.mod_lt _ (Nat.pos_of_ne_zero h0), ?_⟩
            simp only [Nat.zero_add]
            rw [Nat.mul_comm, Nat.mod_add_div]
    · simp [hn]
  | netBroadcast => rw [hk] at hd; exact hd.elim
  | _ => simp [Kind.isNet]

/-- **C68.** The edges drawn into the tasks of a stage are exactly the reads of those tasks, if the stage does not begin with a
boundary, has no broadcast, and gathers the tasks of other stages only if it runs in a single task. Asked of the plan: boundaries
with the same stage number have input stages with the same number of tasks. -/
theorem C68_edges_are_reads_partial (p : Plan Row) (s tasks : Nat) (root : p.kind.isNet = false)
    (kinds : ∀ x, InStage x p → Drawable tasks x.kind)
    (numbered : ∀ x y, InStage x p → InStage y p → x.kind.isNet = true → y.kind.isNet = true → x.kind.num = y.kind.num →
      x.kind.tasks = y.kind.tasks) (e : Edge) :
    e ∈ stageEdges p s tasks ↔ Flows p s tasks e := by
  unfold stageEdges interEdges Flows
  simp only [List.mem_flatMap, List.mem_range, met_drawn tasks p kinds]
  constructor
  · rintro ⟨b', hb', t, ht, i, hi, ⟨b, j⟩, hbj, he⟩
    obtain ⟨hn', hin'⟩ := (mem_inputStages b' p root).1 hb'
    have hj : (drawn p)[j]? = some b := List.mem_zipIdx_iff_getElem?.1 hbj
    have hin : InStage b p := (C68_nodes_of_the_stage p b).1 (List.mem_of_getElem? hj)
    have hnet : b.kind.isNet = true ∧ b.kind.num = b'.kind.num := by
      simp only [edgesAt] at he
      cases hk : b.kind <;> simp [hk] at he <;> simp [Kind.isNet, Kind.num, he]
    have hi' : i < b.kind.tasks := by rw [numbered b b' hin hin' hnet.1 hn' hnet.2]; exact hi
    obtain ⟨-, -, q, pull, hq, hr, rfl, rfl⟩ := (edgesAt_reads s t tasks (j + 1) b ht (kinds b hin) i hi' _ e).1 he
    exact ⟨t, j, q, b, pull, ht, hj, hnet.1, hq, hr, rfl⟩
  · rintro ⟨t, j, q, b, pull, ht, hj, hnet, hq, hr, rfl⟩
    have hin : InStage b p := (C68_nodes_of_the_stage p b).1 (List.mem_of_getElem? hj)
    have hi : pull.task < b.kind.tasks := by
      cases hk : b.kind with
      | shuffle h out n num =>
        rw [hk] at hr
        simp only [Reads, FanExec.execute, List.mem_map, List.mem_range] at hr
        obtain ⟨i, hi, rfl⟩ := hr
        exact hi
      | netBroadcast out n num =>
        have := kinds b hin
        rw [hk] at this; exact this.elim
      | netCoalesce out n num =>
        have hT : tasks = 1 := by have := kinds b hin; rw [hk] at this; exact this
        subst hT
        have ht0 : t = 0 := by omega
        subst ht0
        rw [hk] at hr
        obtain ⟨l, hl, hm⟩ := hr
        have hg : taskGroup n 0 1 = ⟨0, n, n⟩ := by simp [taskGroup, Nat.mod_one]
        simp only [CoalesceExec.execute, hg] at hl
        split at hl
        · cases hl
        · split at hl
          · cases hl
          · split at hl
            · cases hl; cases hm
            · rename_i ho
              cases hl
              have := List.mem_singleton.1 hm
              subst this
              simp only [Kind.tasks]; omega
      | _ => rw [hk] at hnet; cases hnet
    refine ⟨b, (mem_inputStages b p root).2 ⟨hnet, hin⟩, t, ht, pull.task, hi, (b, j),
      List.mem_zipIdx_iff_getElem?.2 hj, ?_⟩
    exact (edgesAt_reads s t tasks (j + 1) b ht (kinds b hin) _ hi _ _).2 ⟨hnet, rfl, q, pull, hq, hr, rfl, rfl⟩

/-! ### Plans they apply to, and plans they do not -/

mutual
theorem stageIn_mem {b : Plan Row} : ∀ (p : Plan Row) (d : Nat), StageIn b d p → b ∈ boundaries p
  | .node k tc cs, d, h => by
    rw [boundaries]
    cases h with
    | here hk => exact List.mem_append_left _ (by rw [show k.isNet = true from hk]; simp)
    | deeper d _ _ _ c hk hc hb => exact List.mem_append_right _ (stageIn_memAll cs c hc d hb)
    | same _ _ _ _ c hk hc hb => exact List.mem_append_right _ (stageIn_memAll cs c hc d hb)
theorem stageIn_memAll {b : Plan Row} : ∀ (cs : List (Plan Row)) (c : Plan Row), c ∈ cs → ∀ d, StageIn b d c →
    b ∈ boundariesAll cs
  | [], _, hc, _, _ => by cases hc
  | x :: cs, c, hc, d, h => by
    rw [boundariesAll]
    by_cases e : c = x
    · exact List.mem_append_left _ (stageIn_mem x d (e ▸ h))
    · exact List.mem_append_right _ (stageIn_memAll cs c (by simpa [e] using hc) d h)
end

/-- A test for `Held`. -/
def heldTest (p : Plan Row) : Bool :=
  !p.kind.isNet && (boundaries p).all fun b => match b.children with
    | [c] => !c.kind.isNet
    | _ => false

theorem heldTest_spec {p : Plan Row} (h : heldTest p = true) : p.kind.isNet = false ∧ Held p := by
  simp only [heldTest, Bool.and_eq_true, Bool.not_eq_true', List.all_eq_true] at h
  refine ⟨h.1, fun d b hb => ?_⟩
  have := h.2 b (stageIn_mem p d hb)
  split at this
  · rename_i c hc
    exact ⟨c, hc, by simpa using this⟩
  · cases this

/-- What EXPLAIN shows of a query, if the planner distributes it. -/
def explain (env : Env Row) (q : Plan Row) : Option (List Block) :=
  match plan env q with
  | .ok (some p) => some (display p)
  | _ => none

/-- The stages of the plan of a query. -/
def stagesOf (env : Env Row) (q : Plan Row) : Option (List Nat) :=
  match plan env q with
  | .ok (some p) => some ((boundaries p).map fun b => b.kind.num)
  | _ => none

namespace Demo

open Tree.Demo

/-- A count per group: two stages below the head stage. -/
def grouped : Plan (Nat × Nat) := fresh (.coalesce none) [fresh keep [fresh (.hashRepart Prod.fst 2 none) [small]]]

/-- The plan of `grouped` meets the hypotheses of C67, and this is what is shown. -/
example : (match plan sess grouped with | .ok (some p) => heldTest p | _ => false) = true := by decide +kernel
example : explain sess grouped = some
    [⟨0, none, 1, [[], [0]]⟩, ⟨1, some 2, 3, [[], [0]]⟩, ⟨2, some 1, 3, [[], [0]]⟩] := by decide +kernel
example : stagesOf sess grouped = some [2, 1] := by decide +kernel

/-- Rows dealt by hash, dealt again in turn, and gathered. -/
def dealtTwice : Plan (Nat × Nat) :=
  fresh (.coalesce none) [fresh (roundRobin 3) [fresh (.hashRepart Prod.fst 2 none) [small]]]

end Demo

/-- **C67 is false** of plans that deal rows by hash, deal them again in turn and gather them: the second dealing is left out of
the stage that is gathered, so that this stage begins with the shuffle. The input stages of a plan are only looked for below
its root, and the stage that scans is not shown. -/
theorem C67_stage_below_the_root_of_a_stage_false : ∃ (env : Env (Nat × Nat)) (q : Plan (Nat × Nat)), EnvOk env ∧
    stagesOf env q = some [2, 1] ∧ (explain env q).map (·.map Block.stage) = some [none, some 2] :=
  ⟨Tree.Demo.sess, Demo.dealtTwice, Tree.Demo.sess_ok, by decide +kernel, by decide +kernel⟩

namespace Demo

open Tree.Demo

def scan (k : Nat) : Plan (Nat × Nat) := fresh (.leaf [List.replicate k (k, k)]) []

def read : Plan (Nat × Nat) := fresh (.shuffle Prod.fst 2 2 1) [fresh (.hashRepart Prod.fst 4 none) [scan 1]]

/-- A stage of two tasks that reads a shuffle of two tasks. -/
def shuffled : Plan (Nat × Nat) := fresh keep [read]

/-- A head stage that gathers three tasks of one partition. -/
def gathered : Plan (Nat × Nat) := fresh (.coalesce none) [fresh (.netCoalesce 3 3 2) [shuffled]]

theorem drawn_shuffled : drawn shuffled = [shuffled, read] := rfl

/-- The hypotheses of C68 hold of it. -/
theorem shuffled_edges (e : Edge) : e ∈ stageEdges shuffled 2 2 ↔ Flows shuffled 2 2 e := by
  have h : ∀ x, InStage x shuffled → x = shuffled ∨ x = read := fun x hx => by
    have := (C68_nodes_of_the_stage shuffled x).2 hx
    simpa [drawn_shuffled] using this
  refine C68_edges_are_reads_partial shuffled 2 2 rfl (fun x hx => ?_) (fun x y hx hy hnx hny _ => ?_) e
  · rcases h x hx with rfl | rfl <;> exact True.intro
  · rcases h x hx with rfl | rfl
    · cases hnx
    · rcases h y hy with rfl | rfl
      · cases hny
      · rfl

example : stageEdges shuffled 2 2 =
    [⟨⟨1, 0, 1, 0⟩, ⟨2, 0, 2, 0⟩⟩, ⟨⟨1, 0, 1, 1⟩, ⟨2, 0, 2, 1⟩⟩, ⟨⟨1, 1, 1, 0⟩, ⟨2, 0, 2, 0⟩⟩, ⟨⟨1, 1, 1, 1⟩, ⟨2, 0, 2, 1⟩⟩,
     ⟨⟨1, 0, 1, 2⟩, ⟨2, 1, 2, 0⟩⟩, ⟨⟨1, 0, 1, 3⟩, ⟨2, 1, 2, 1⟩⟩, ⟨⟨1, 1, 1, 2⟩, ⟨2, 1, 2, 0⟩⟩, ⟨⟨1, 1, 1, 3⟩, ⟨2, 1, 2, 1⟩⟩] := by
  decide +kernel

/-- One side of a join is broadcast, the other is shuffled: the stage of the join has two tasks. -/
def joined : Plan (Nat × Nat) := fresh (.op (.det fun as => as.getD 0 []) none)
  [fresh (.netBroadcast 2 1 1) [fresh (.broadcast 2) [scan 1]],
   fresh keep [fresh (.shuffle Prod.fst 2 2 2) [fresh (.hashRepart Prod.fst 4 none) [scan 1]]]]

/-- Four tasks of two partitions gathered by two tasks. -/
def halved : Plan (Nat × Nat) := fresh keep [fresh (.netCoalesce 4 4 1) [small]]

end Demo

/-- **C68 is false** of stages that read a broadcast: the read of its first partition is not drawn. -/
theorem C68_broadcast_reads_false : ∃ (p : Plan (Nat × Nat)) (e : Edge), p.kind.isNet = false ∧
    Flows p 3 2 e ∧ e ∉ stageEdges p 3 2 :=
  ⟨Demo.joined, ⟨⟨1, 0, 1, 0⟩, ⟨3, 0, 2, 0⟩⟩, rfl,
    ⟨0, 1, 0, _, ⟨0, 0, 0, 2⟩, by decide, rfl, rfl, by decide, by
      show (_ : Pull) ∈ (FanExec.mk 2 1).execute ⟨0, 2⟩ 0
      decide +kernel, rfl⟩, by decide +kernel⟩

/-- **C68 is false** beside a broadcast, too: edges of the shuffle next to it lead to a node that is not drawn. Only four nodes
are drawn for a task of the stage. -/
theorem C68_edge_to_a_missing_node_false : ∃ (p : Plan (Nat × Nat)) (e : Edge), p.kind.isNet = false ∧
    e ∈ stageEdges p 3 2 ∧ (drawn p).length < e.target.node :=
  ⟨Demo.joined, ⟨⟨2, 0, 1, 0⟩, ⟨3, 0, 5, 0⟩⟩, rfl, by decide +kernel, by decide +kernel⟩

/-- **C68 is false** of stages that gather in several tasks: the second task of the two reads the tasks 2 and 3 only, but an edge
from task 0 is drawn to it. -/
theorem C68_gathering_in_several_tasks_false : ∃ (p : Plan (Nat × Nat)) (e : Edge), p.kind.isNet = false ∧
    e ∈ stageEdges p 2 2 ∧ ¬ Flows p 2 2 e := by
  refine ⟨Demo.halved, ⟨⟨1, 0, 1, 0⟩, ⟨2, 1, 2, 0⟩⟩, rfl, by decide +kernel, ?_⟩
  rintro ⟨t, j, q, b, pull, ht, hj, hn, hq, hr, he⟩
  simp only [Edge.mk.injEq, Port.mk.injEq] at he
  obtain ⟨⟨-, h1, -, -⟩, -, h2, h3, h4⟩ := he
  subst h2; subst h4
  obtain rfl : j = 1 := by omega
  have hb : b = Demo.halved.children.headD Demo.halved := by
    have : (drawn Demo.halved)[1]? = some (Demo.halved.children.headD Demo.halved) := rfl
    rw [this] at hj
    exact (Option.some.inj hj).symm
  subst hb
  obtain ⟨l, hl, hm⟩ := hr
  have : (CoalesceExec.mk 4 4).execute ⟨1, 2⟩ 0 = .ok [⟨2, 0, 0, 2⟩] := rfl
  rw [this] at hl
  cases hl
  simp at hm
  subst hm
  cases h1

end DD.Display
