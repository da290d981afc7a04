/-
**C68**: the edges drawn inside the tasks of a stage.
-/
import Verif.Model.DrawInside
import Verif.Props.Display
import Verif.Lemmas.MetricsRewrite

namespace DD.Display

open DD.Tree DD.Metrics

variable {Row : Type}

/-! ### Positions -/

theorem nodeAt_below : ∀ {p : Plan Row} {x : Path} {y c : Plan Row} {l : Nat}, NodeAt p x y → y.kind.isNet = false →
    y.children[l]? = some c → NodeAt p (x ++ [l]) c := by
  intro p x y c l h
  induction h with
  | root =>
    rename_i p
    intro hn hc
    cases p with
    | node k tc cs => exact .child hn hc .root
  | child hk hi _ ih => intro hn hc; exact .child hk hi (ih hn hc)

theorem nodeAt_unique {p : Plan Row} {x : Path} {y z : Plan Row} (h : NodeAt p x y) : NodeAt p x z → y = z := by
  induction h with
  | root => intro h; cases h; rfl
  | child _ hi _ ih =>
    intro h
    cases h with
    | child _ hi' h' =>
      rw [hi] at hi'
      cases hi'
      exact ih h'

/-- The positions below the children of a node are those of its children, one step down. -/
theorem nodesAll_eq : ∀ (cs : List (Plan Row)) (i : Nat),
    nodesAll i cs = (cs.zipIdx i).flatMap fun c => (nodes c.1).map (c.2 :: ·)
  | [], _ => rfl
  | c :: cs, i => by rw [nodesAll, nodesAll_eq cs (i + 1), List.zipIdx_cons, List.flatMap_cons]

/-! ### The queue -/

/-- What is taken from the queue: the position of a node, the node, and what is above it. -/
abbrev Entry (Row : Type) := Path × Plan Row × Option (Plan Row × Nat)

/-- The entries a node adds to the queue. -/
def adds (n : Nat) (e : Entry Row) : List (Entry Row) :=
  if e.2.1.kind.isNet then [] else e.2.1.children.zipIdx.map fun c => (e.1 ++ [c.2], c.1, some (e.2.1, n + 1))

/-- The entries in the order they are taken. -/
def entries : Nat → Nat → List (Entry Row) → List (Entry Row)
  | 0, _, _ => []
  | _, _, [] => []
  | fuel + 1, n, e :: queue => e :: entries fuel (n + 1) (queue ++ adds n e)

/-- The edges drawn for an entry. -/
def edgesOf (e : Entry Row) (n : Nat) : List (Inner Row) :=
  match e.2.2 with
  | none => []
  | some (x, j) => (List.range e.2.1.parts).map fun i => ⟨⟨e.2.1, n + 1, i⟩, ⟨x, j, i⟩⟩

theorem adds_plans (n : Nat) (e : Entry Row) :
    (adds n e).map (·.2) = if e.2.1.kind.isNet then [] else e.2.1.children.map fun c => (c, some (e.2.1, n + 1)) := by
  unfold adds
  split
  · rfl
  · rw [List.map_map]
    have : ((fun x : Entry Row => x.2) ∘ fun c : Plan Row × Nat => (e.1 ++ [c.2], c.1, some (e.2.1, n + 1)))
        = (fun c => (c, some (e.2.1, n + 1))) ∘ Prod.fst := rfl
    rw [this, ← List.map_map, List.zipIdx_map_fst]

theorem innerFrom_entries : ∀ (fuel n : Nat) (q : List (Entry Row)),
    innerFrom fuel n (q.map (·.2)) = ((entries fuel n q).zipIdx n).flatMap fun e => edgesOf e.1 e.2
  | 0, _, _ => by simp [innerFrom, entries]
  | fuel + 1, n, [] => by simp [innerFrom, entries]
  | fuel + 1, n, (π, p, par) :: q => by
    rw [entries, List.zipIdx_cons, List.flatMap_cons, ← innerFrom_entries fuel (n + 1), List.map_append, adds_plans]
    cases par <;> simp only [List.map_cons, innerFrom, edgesOf]

theorem entries_plans : ∀ (fuel n : Nat) (q : List (Entry Row)),
    (entries fuel n q).map (·.2.1) = bfs Kind.isNet fuel (q.map (·.2.1))
  | 0, _, _ => by simp [bfs, entries]
  | fuel + 1, n, [] => by simp [bfs, entries]
  | fuel + 1, n, e :: q => by
    have : (adds n e).map (·.2.1) = if e.2.1.kind.isNet then [] else e.2.1.children := by
      have h := congrArg (List.map Prod.fst) (adds_plans n e)
      rw [List.map_map] at h
      refine (Eq.trans ?_ h).trans ?_
      · rfl
      · split
        · rfl
        · rw [List.map_map]; exact List.map_id _
    rw [entries, List.map_cons, List.map_cons, bfs, entries_plans fuel (n + 1), List.map_append, this]

/-- What holds while the queue is worked off: `done` was taken from it, `queue` is left. -/
structure Inv (root : Plan Row) (done queue : List (Entry Row)) : Prop where
  here : ∀ e ∈ done ++ queue, NodeAt root e.1 e.2.1
  above : ∀ e ∈ done ++ queue, match e.2.2 with
    | none => e.1 = []
    | some (x, j) => ∃ i, j = i + 1 ∧ ∃ π par, done[i]? = some (π, x, par) ∧ ∃ l, e.1 = π ++ [l]
  all : (done.map (·.1) ++ queue.flatMap fun e => (nodes e.2.1).map (e.1 ++ ·)).Perm (nodes root)

theorem above_mono {done done' : List (Entry Row)} {e : Entry Row} (h : match e.2.2 with
    | none => e.1 = []
    | some (x, j) => ∃ i, j = i + 1 ∧ ∃ π par, done[i]? = some (π, x, par) ∧ ∃ l, e.1 = π ++ [l]) :
    match e.2.2 with
    | none => e.1 = []
    | some (x, j) => ∃ i, j = i + 1 ∧ ∃ π par, (done ++ done')[i]? = some (π, x, par) ∧ ∃ l, e.1 = π ++ [l] := by
  obtain ⟨π, p, par⟩ := e
  cases par with
  | none => exact h
  | some xj =>
    obtain ⟨i, hi, π', par, hd, hl⟩ := h
    refine ⟨i, hi, π', par, ?_, hl⟩
    rw [List.getElem?_append_left (List.getElem?_eq_some_iff.1 hd).1]
    exact hd

theorem adds_below {n : Nat} {e : Entry Row} :
    (adds n e).flatMap (fun e => (nodes e.2.1).map (e.1 ++ ·)) =
      if e.2.1.kind.isNet then [] else (nodesAll 0 e.2.1.children).map (e.1 ++ ·) := by
  unfold adds
  split
  · rfl
  · rw [nodesAll_eq, List.map_flatMap, List.flatMap_map]
    congr 1
    funext c
    simp only [List.map_map, Function.comp_def, List.append_assoc, List.singleton_append]

theorem inv_step {root : Plan Row} {done queue : List (Entry Row)} {e : Entry Row} (h : Inv root done (e :: queue)) :
    Inv root (done ++ [e]) (queue ++ adds done.length e) := by
  have he := h.here e (by simp)
  have split : ∀ f, f ∈ (done ++ [e]) ++ (queue ++ adds done.length e) → f ∈ done ++ e :: queue ∨ f ∈ adds done.length e := by
    intro f hf
    simp only [List.mem_append, List.mem_cons, List.not_mem_nil, or_false] at hf ⊢
    tauto
  have added : ∀ f ∈ adds done.length e, e.2.1.kind.isNet = false
      ∧ ∃ l c, e.2.1.children[l]? = some c ∧ f = (e.1 ++ [l], c, some (e.2.1, done.length + 1)) := by
    intro f hf
    unfold adds at hf
    split at hf
    · cases hf
    · rename_i hk
      obtain ⟨⟨c, l⟩, hc, rfl⟩ := List.mem_map.1 hf
      refine ⟨by simpa using hk, l, c, ?_, rfl⟩
      exact List.mem_zipIdx_iff_getElem?.1 hc
  refine ⟨fun f hf => ?_, fun f hf => ?_, ?_⟩
  · rcases split f hf with hf | hf
    · exact h.here f hf
    · obtain ⟨hk, l, c, hc, rfl⟩ := added f hf
      exact nodeAt_below he hk hc
  · rcases split f hf with hf | hf
    · exact above_mono (h.above f hf)
    · obtain ⟨hk, l, c, hc, rfl⟩ := added f hf
      exact ⟨done.length, rfl, e.1, e.2.2, by simp, l, rfl⟩
  · refine List.Perm.trans (l₂ := done.map (·.1) ++ ([e.1] ++ (queue.flatMap (fun e => (nodes e.2.1).map (e.1 ++ ·))
        ++ (adds done.length e).flatMap (fun e => (nodes e.2.1).map (e.1 ++ ·))))) (.of_eq ?_) (.trans ?_ h.all)
    · simp [List.flatMap_append]
    · refine List.Perm.append_left _ ?_
      rw [List.flatMap_cons]
      have hn : (nodes e.2.1).map (e.1 ++ ·) = [e.1] ++ (adds done.length e).flatMap (fun e => (nodes e.2.1).map (e.1 ++ ·)) := by
        rw [adds_below]
        by_cases hk : e.2.1.kind.isNet = true
        · rw [if_pos hk]
          obtain ⟨π, ⟨k, tc, cs⟩, par⟩ := e
          have hk' : k.isNet = true := hk
          simp [nodes, hk']
        · rw [if_neg hk]
          obtain ⟨π, ⟨k, tc, cs⟩, par⟩ := e
          have hk' : k.isNet = false := by simpa [Plan.kind] using hk
          simp [nodes, hk', Plan.children]
      rw [hn, List.append_assoc]
      exact List.Perm.append_left _ List.perm_append_comm

theorem inv_entries {root : Plan Row} : ∀ (fuel : Nat) (done queue : List (Entry Row)), Inv root done queue →
    sizeAll (queue.map (·.2.1)) ≤ fuel → Inv root (done ++ entries fuel done.length queue) []
  | 0, done, [], h, _ => by simpa [entries] using h
  | 0, done, (π, .node k tc cs, par) :: queue, _, hs => by simp [sizeAll, size] at hs
  | fuel + 1, done, [], h, _ => by simpa [entries] using h
  | fuel + 1, done, e :: queue, h, hs => by
    have hsz : sizeAll ((adds done.length e).map (·.2.1)) + 1 ≤ size e.2.1 := by
      have : (adds done.length e).map (·.2.1) = if e.2.1.kind.isNet then [] else e.2.1.children := by
        have h := congrArg (List.map Prod.fst) (adds_plans done.length e)
        rw [List.map_map] at h
        refine (Eq.trans ?_ h).trans ?_
        · rfl
        · split
          · rfl
          · rw [List.map_map]; exact List.map_id _
      rw [this]
      by_cases hk : e.2.1.kind.isNet = true
      · rw [if_pos hk]
        obtain ⟨π, ⟨k, tc, cs⟩, par⟩ := e
        simp [sizeAll, size]
      · rw [if_neg hk]
        obtain ⟨π, ⟨k, tc, cs⟩, par⟩ := e
        simp only [Plan.children, size]
        omega
    have ih := inv_entries fuel (done ++ [e]) (queue ++ adds done.length e) (inv_step h) (by
      simp only [List.map_cons, sizeAll] at hs
      rw [List.map_append, sizeAll_append]
      omega)
    rw [entries]
    simpa using ih

/-! ### **C68** -/

/-- **C68.** Inside a task: the nodes of the stage can be listed, each once, such that the number of a node in the drawing is its
place in this list, and the edges are exactly those from every partition of a node to the node above it. No edge is drawn twice. -/
theorem C68_edges_inside_a_task (p : Plan Row) : ∃ places : List Path, places.Perm (nodes p)
    ∧ (∀ (j : Nat) (x : Plan Row), (drawn p)[j]? = some x ↔ ∃ π, places[j]? = some π ∧ NodeAt p π x)
    ∧ (∀ e : Inner Row, e ∈ innerEdges p ↔ ∃ (j k : Nat) (π : Path) (l : Nat) (x c : Plan Row) (i : Nat),
        places[j]? = some π ∧ places[k]? = some (π ++ [l]) ∧ NodeAt p π x ∧ NodeAt p (π ++ [l]) c ∧ i < c.parts
        ∧ e = ⟨⟨c, k + 1, i⟩, ⟨x, j + 1, i⟩⟩)
    ∧ (innerEdges p).Nodup := by
  have hinv : Inv p [] [([], p, none)] := by
    refine ⟨fun e he => ?_, fun e he => ?_, ?_⟩
    · simp only [List.nil_append, List.mem_singleton] at he; subst he; exact .root
    · simp only [List.nil_append, List.mem_singleton] at he; subst he; rfl
    · simp
  have h := inv_entries (size p) [] [([], p, none)] hinv (by simp [sizeAll])
  have hedges : innerEdges p = ((entries (size p) 0 [([], p, none)]).zipIdx 0).flatMap fun e => edgesOf e.1 e.2 :=
    innerFrom_entries (size p) 0 [([], p, none)]
  have hdrawn : drawn p = (entries (size p) 0 [([], p, none)]).map (·.2.1) := (entries_plans (size p) 0 [([], p, none)]).symm
  simp only [List.nil_append, List.length_nil] at h
  generalize entries (size p) 0 [([], p, none)] = out at h hedges hdrawn
  have hperm : (out.map (·.1)).Perm (nodes p) := by simpa using h.all
  have hnd : (out.map (·.1)).Nodup := hperm.symm.nodup (nodes_spec p).1
  have hhere : ∀ (j : Nat) (e : Entry Row), out[j]? = some e → NodeAt p e.1 e.2.1 :=
    fun j e he => h.here e (by simpa using List.mem_of_getElem? he)
  refine ⟨out.map (·.1), hperm, fun j x => ?_, fun e => ?_, ?_⟩
  · rw [hdrawn, List.getElem?_map]
    simp only [List.getElem?_map]
    constructor
    · intro hx
      cases he : out[j]? with
      | none => rw [he] at hx; cases hx
      | some e =>
        rw [he] at hx
        cases hx
        exact ⟨e.1, rfl, hhere j e he⟩
    · rintro ⟨π, hπ, hx⟩
      cases he : out[j]? with
      | none => rw [he] at hπ; cases hπ
      | some e =>
        rw [he] at hπ
        cases hπ
        rw [nodeAt_unique hx (hhere j e he)]
        rfl
  · rw [hedges, List.mem_flatMap]
    simp only [List.getElem?_map]
    constructor
    · rintro ⟨⟨⟨π', c, par⟩, k⟩, hm, he⟩
      have hk : out[k]? = some (π', c, par) := List.mem_zipIdx_iff_getElem?.1 hm
      have ha := h.above (π', c, par) (by simpa using List.mem_of_getElem? hk)
      unfold edgesOf at he
      cases par with
      | none => cases he
      | some xj =>
        obtain ⟨x, j'⟩ := xj
        simp only at he ha
        obtain ⟨i, hi, rfl⟩ := List.mem_map.1 he
        obtain ⟨j, rfl, π, par, hj, l, rfl⟩ := ha
        refine ⟨j, k, π, l, x, c, i, by rw [hj]; rfl, by rw [hk]; rfl, hhere j _ hj, hhere k _ hk, List.mem_range.1 hi, rfl⟩
    · rintro ⟨j, k, π, l, x, c, i, hj, hk, hx, hc, hi, rfl⟩
      cases hek : out[k]? with
      | none => rw [hek] at hk; cases hk
      | some ek =>
        cases hej : out[j]? with
        | none => rw [hej] at hj; cases hj
        | some ej =>
          rw [hek] at hk
          rw [hej] at hj
          obtain ⟨πk, ck, park⟩ := ek
          obtain ⟨πj, xj, parj⟩ := ej
          simp only [Option.map_some, Option.some.injEq] at hj hk
          subst hj
          subst hk
          have ha := h.above _ (by simpa using List.mem_of_getElem? hek)
          refine ⟨(_, k), List.mem_zipIdx_iff_getElem?.2 hek, ?_⟩
          cases park with
          | none => simp at ha
          | some xj' =>
            obtain ⟨x', j'⟩ := xj'
            simp only at ha
            obtain ⟨j0, rfl, π0, par0, hj0, l0, hl⟩ := ha
            have hπ : πj = π0 := (List.append_inj' hl rfl).1
            have hjj : j0 = j := by
              have e1 : (out.map (·.1))[j0]? = some πj := by rw [List.getElem?_map, hj0, hπ]; rfl
              have e2 : (out.map (·.1))[j]? = some πj := by rw [List.getElem?_map, hej]; rfl
              obtain ⟨l1, g1⟩ := List.getElem?_eq_some_iff.1 e1
              obtain ⟨l2, g2⟩ := List.getElem?_eq_some_iff.1 e2
              exact (hnd.getElem_inj_iff).1 (g1.trans g2.symm)
            subst hjj
            rw [hej] at hj0
            have hx' : x = xj := nodeAt_unique hx (hhere _ _ hej)
            have hc' : c = ck := nodeAt_unique hc (hhere _ _ hek)
            cases hj0
            subst hx' hc'
            exact List.mem_map.2 ⟨i, List.mem_range.2 hi, rfl⟩
  · rw [hedges]
    rw [List.nodup_flatMap]
    constructor
    · rintro ⟨e, k⟩ _
      unfold edgesOf
      split
      · exact List.nodup_nil
      · refine List.Nodup.map (fun a b hab => ?_) List.nodup_range
        exact congrArg (fun e : Inner Row => e.source.port) hab
    · have hz : ((out.zipIdx 0).map (·.2)).Nodup := by
        rw [List.zipIdx_map_snd]; exact List.nodup_range'
      have hz' := List.pairwise_map.1 hz
      refine hz'.imp ?_
      rintro ⟨e, k⟩ ⟨e', k'⟩ hne a ha hb
      have src : ∀ (e : Entry Row) k, a ∈ edgesOf e k → a.source.node = k + 1 := by
        intro e k h
        unfold edgesOf at h
        split at h
        · cases h
        · obtain ⟨i, _, rfl⟩ := List.mem_map.1 h; rfl
      have h1 := src e k ha
      have h2 := src e' k' hb
      simp only at hne
      omega

theorem nodeAt_parent {p x c : Plan Row} {π : Path} {l : Nat} (hx : NodeAt p π x) (hc : NodeAt p (π ++ [l]) c) :
    x.kind.isNet = false ∧ x.children[l]? = some c := by
  induction hx with
  | root =>
    cases hc with
    | child hk hi h => cases h; exact ⟨hk, hi⟩
  | child _ hi _ ih =>
    cases hc with
    | child _ hi' h =>
      rw [hi] at hi'
      cases hi'
      exact ih h

theorem nodeAt_inStage {p x : Plan Row} {π : Path} (hx : NodeAt p π x) : InStage x p := by
  induction hx with
  | root => exact .here
  | child hk hi _ ih => exact .child _ _ _ _ hk (List.mem_of_getElem? hi) ih

/-- **C68.** Inside a task: if the inputs of every node of the stage have equally many partitions, then every edge begins and ends at
a port that is drawn. -/
theorem C68_edges_end_at_ports_partial (p : Plan Row)
    (h : ∀ x c d, InStage x p → x.kind.isNet = false → c ∈ x.children → d ∈ x.children → c.parts = d.parts) :
    ∀ e ∈ innerEdges p, e.source.port < topPorts e.source.plan ∧ e.target.port < bottomPorts e.target.plan
      ∧ (drawn p)[e.source.node - 1]? = some e.source.plan ∧ (drawn p)[e.target.node - 1]? = some e.target.plan := by
  obtain ⟨places, _, hd, he, _⟩ := C68_edges_inside_a_task p
  intro e hm
  obtain ⟨j, k, π, l, x, c, i, hj, hk, hx, hc, hi, rfl⟩ := (he e).1 hm
  obtain ⟨hn, hl⟩ := nodeAt_parent hx hc
  refine ⟨hi, ?_, (hd k c).2 ⟨_, hk, hc⟩, (hd j x).2 ⟨_, hj, hx⟩⟩
  show i < bottomPorts x
  unfold bottomPorts
  rw [hn]
  have hmem := List.mem_of_getElem? hl
  cases hcs : x.children with
  | nil => rw [hcs] at hmem; cases hmem
  | cons d ds =>
    have := h x c d (nodeAt_inStage hx) hn hmem (by rw [hcs]; exact List.mem_cons_self ..)
    simp only [Bool.false_eq_true, if_false]
    omega

/-- **C68.** Between stages: the edges that are drawn lead to nodes that are drawn, and to ports these nodes have, under the conditions
of `C68_edges_are_reads_partial`. -/
theorem C68_edges_between_stages_end_at_ports_partial (p : Plan Row) (s tasks : Nat) (root : p.kind.isNet = false)
    (kinds : ∀ x, InStage x p → Drawable tasks x.kind)
    (numbered : ∀ x y, InStage x p → InStage y p → x.kind.isNet = true → y.kind.isNet = true → x.kind.num = y.kind.num →
      x.kind.tasks = y.kind.tasks) (e : Edge) (he : e ∈ stageEdges p s tasks) :
    ∃ b, (drawn p)[e.target.node - 1]? = some b ∧ b.kind.isNet = true ∧ e.target.port < bottomPorts b := by
  obtain ⟨t, j, q, b, pull, ht, hj, hn, hq, hr, rfl⟩ := (C68_edges_are_reads_partial p s tasks root kinds numbered e).1 he
  refine ⟨b, hj, hn, ?_⟩
  show q < bottomPorts b
  unfold bottomPorts
  rw [if_pos hn]
  clear hj hr he root kinds numbered
  obtain ⟨k, tc, cs⟩ := b
  cases k <;> first | (cases hn; done) | (simp only [Plan.parts, run, runBoth, runKind]; exact hq)

namespace Demo

/-- All rows of a table in one file, and of another in two. -/
def twoTables : Plan Nat := fresh .union [fresh (.leaf [[1]]) [], fresh (.leaf [[2], [3]]) []]

/-- A union of a table with the union of two others. -/
def level : Plan Nat := fresh .union [fresh .union [fresh (.leaf [[1], [2]]) [], fresh (.leaf [[2], [3]]) []], fresh (.leaf [[], [], [], [9]]) []]

theorem level_stage {x : Plan Nat} (h : InStage x level) : x ∈ drawn level := (C68_nodes_of_the_stage _ _).2 h

/-- The nodes of a stage that has several levels are numbered level by level. -/
example : (innerEdges level).map (fun e => (e.source.node, e.source.port, e.target.node, e.target.port))
    = [(2, 0, 1, 0), (2, 1, 1, 1), (2, 2, 1, 2), (2, 3, 1, 3), (3, 0, 1, 0), (3, 1, 1, 1), (3, 2, 1, 2), (3, 3, 1, 3),
      (4, 0, 2, 0), (4, 1, 2, 1), (5, 0, 2, 0), (5, 1, 2, 1)] := by
  decide +kernel

/-- The hypothesis holds of it. -/
example : ∀ e ∈ innerEdges level, e.target.port < bottomPorts e.target.plan := by
  refine fun e he => (C68_edges_end_at_ports_partial level (fun x c d hx _ hc hd => ?_) e he).2.1
  have hx := level_stage hx
  have : (drawn level).all (fun x => x.children.all fun c => x.children.all fun d => c.parts == d.parts) = true := by
    decide +kernel
  simpa using List.all_eq_true.1 (List.all_eq_true.1 (List.all_eq_true.1 this x hx) c hc) d hd

/-- The hypotheses of `C68_edges_between_stages_end_at_ports_partial` hold of a stage that reads a shuffle. -/
example (e : Edge) (he : e ∈ stageEdges shuffled 2 2) :
    ∃ b, (drawn shuffled)[e.target.node - 1]? = some b ∧ b.kind.isNet = true ∧ e.target.port < bottomPorts b := by
  have h : ∀ x, InStage x shuffled → x = shuffled ∨ x = read := fun x hx => by
    have := (C68_nodes_of_the_stage shuffled x).2 hx
    simpa [drawn_shuffled] using this
  refine C68_edges_between_stages_end_at_ports_partial shuffled 2 2 rfl (fun x hx => ?_) (fun x y hx hy hnx hny _ => ?_) e he
  · rcases h x hx with rfl | rfl <;> exact True.intro
  · rcases h x hx with rfl | rfl
    · cases hnx
    · rcases h y hy with rfl | rfl
      · cases hny
      · rfl

end Demo

/-- **C68 is false** inside tasks that read inputs of different partition counts: an edge leads to a port that is not drawn, as a node
has the ports of its first input. -/
theorem C68_edge_to_a_missing_port_false : ∃ (p : Plan Nat) (e : Inner Nat), e ∈ innerEdges p
    ∧ bottomPorts e.target.plan ≤ e.target.port :=
  ⟨Demo.twoTables, ⟨⟨fresh (.leaf [[2], [3]]) [], 3, 1⟩, ⟨Demo.twoTables, 1, 1⟩⟩, by
    obtain ⟨places, _, hd, he, _⟩ := C68_edges_inside_a_task Demo.twoTables
    have : innerEdges Demo.twoTables = [⟨⟨fresh (.leaf [[1]]) [], 2, 0⟩, ⟨Demo.twoTables, 1, 0⟩⟩,
      ⟨⟨fresh (.leaf [[2], [3]]) [], 3, 0⟩, ⟨Demo.twoTables, 1, 0⟩⟩, ⟨⟨fresh (.leaf [[2], [3]]) [], 3, 1⟩, ⟨Demo.twoTables, 1, 1⟩⟩] := by
      rfl
    rw [this]
    simp, by decide +kernel⟩

end DD.Display
