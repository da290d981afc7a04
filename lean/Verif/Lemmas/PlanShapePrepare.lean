/-
What preparing the boundaries makes of the stages below them.
-/
import Verif.Lemmas.PlanShapeInject

namespace DD.Tree

variable {Row : Type} {env : Env Row} {D : Prop} {keep : Bool}

/-- The partition count of a node depends on the node and the partition counts of its children. -/
theorem parts_congr {k : Kind Row} {tc tc'} {cs cs' : List (Plan Row)} (h : cs.map Plan.parts = cs'.map Plan.parts) :
    (Plan.node k tc cs).parts = (Plan.node k tc' cs').parts := by
  have hg : ∀ i, ((cs.map runBoth).getD i (.none, .none)).1.parts = ((cs'.map runBoth).getD i (.none, .none)).1.parts := by
    intro i
    have := congrArg (fun l : List Nat => l.getD i 0) h
    simp only [List.getD_eq_getElem?_getD, List.getElem?_map] at this ⊢
    cases h1 : cs[i]? <;> cases h2 : cs'[i]? <;> simp [h1, h2, Plan.parts, run, Ran.none] at this ⊢ <;> exact this
  have hm : ∀ cs : List (Plan Row), ((cs.map runBoth).map fun c => c.1.parts) = cs.map Plan.parts := by
    intro cs; rw [List.map_map]; rfl
  have hm' : ∀ cs : List (Plan Row), (((cs.map runBoth).map fun c => c.1).map fun c => c.parts) = cs.map Plan.parts := by
    intro cs; rw [List.map_map, List.map_map]; rfl
  unfold Plan.parts
  rw [run_node, run_node]
  cases k
  case join m s => cases m <;> exact hg _
  case union => show ((cs.map runBoth).map fun c => c.1.parts).sum = ((cs'.map runBoth).map fun c => c.1.parts).sum; rw [hm, hm, h]
  case ciu ws m => show ciuParts m ((cs.map runBoth).map fun c => c.1.parts) = ciuParts m ((cs'.map runBoth).map fun c => c.1.parts); rw [hm, hm, h]
  case op g r => exact hg 0
  case broadcast n => show _ * n = _ * n; rw [hg 0]
  all_goals rfl

theorem netParts_parts {k : Kind Row} (hk : k.isNet = true) {tc} {cs : List (Plan Row)} : (Plan.node k tc cs).parts = k.netParts := by
  cases k <;> first | rfl | cases hk

theorem withStage_netParts {k : Kind Row} (hk : k.isNet = true) (h1 : 1 ≤ k.tasks) (i : Nat) : (k.withStage i).netParts = k.netParts := by
  cases k
  case netCoalesce p n j =>
    show p * n / max n 1 = p
    have : max n 1 = n := by simp only [Kind.tasks] at h1; omega
    rw [this]
    exact Nat.mul_div_cancel _ h1
  all_goals first | rfl | cases hk

/-- Preparing keeps partition counts. -/
theorem prepare_parts : ∀ {p : Plan Row} {t id p' id'}, prepare keep p t id = .ok (p', id') → Every (PreOk env D) t p →
    p'.parts = p.parts
  | .node k tc cs, t, id, p', id', h, hp => by
    obtain ⟨cs', id1, hall, l, h1, h2⟩ := prepare_inv h
    clear hall
    obtain ⟨p1, p2⟩ := every_node.mp hp
    have hc : cs'.map Plan.parts = cs.map Plan.parts := by
      apply List.ext_getElem (by simpa using l)
      intro i a b
      simp only [List.getElem_map]
      simp only [List.length_map] at a b
      obtain ⟨c, x, y, e1, e2⟩ := h1 i cs'[i] (by simp)
      have : sizeOf c < sizeOf cs := List.sizeOf_lt_of_mem (List.mem_of_getElem? e1)
      rw [prepare_parts e2 (p2 i c e1)]
      rw [List.getElem?_eq_getElem b] at e1
      cases e1; rfl
    rcases prepareNode_inv h2 with ⟨hk, rfl, _⟩ | ⟨c', rest, rfl, hk, h3⟩
    · exact parts_congr hc
    · rcases h3 with ⟨_, ht, hkt, rfl, _⟩ | ⟨hne, c'', h3, rfl, _⟩
      · obtain ⟨c, rest', rfl⟩ : ∃ c rest', cs = c :: rest' := by
          cases cs with
          | nil => simp at l
          | cons c r => exact ⟨c, r, rfl⟩
        simp only [List.map_cons, List.cons.injEq] at hc
        rw [hc.1, netParts_parts hk]
        obtain ⟨q1, q2, q3⟩ := p1.pre
        cases k
        case shuffle f p n i =>
          obtain ⟨_, _, _, y, e⟩ := q1 f p n i rfl
          cases e; rfl
        case netBroadcast p n i =>
          obtain ⟨_, _, _, _, e, e2⟩ := q2 p n i rfl
          cases e; exact e2.symm
        case netCoalesce p n i =>
          obtain ⟨_, _, e, e2, _⟩ := q3 p n i rfl
          cases e
          simp only [Kind.tasks] at hkt
          subst hkt
          show _ = p
          omega
        all_goals cases hk
      · rw [netParts_parts (by rw [withStage_isNet]; exact hk), netParts_parts hk,
          withStage_netParts hk (p1.net hk).2.1]
termination_by p => sizeOf p

/-- A boundary after preparing: its input has the head its consumers, `t` tasks, need. -/
structure PostNet (D : Prop) (t : Nat) (x : Plan Row) : Prop where
  shuffle : ∀ h p n i, x.kind = .shuffle h p n i → ∃ tc tc' y, x = .node x.kind tc [.node (.hashRepart h (p * t) none) tc' [y]]
  broadcast : ∀ p n i, x.kind = .netBroadcast p n i →
    ∃ tc b tc' y, x = .node x.kind tc [.node (.broadcast b) tc' [y]] ∧ 0 < y.parts ∧ y.parts * b = p * t
  coalesce : ∀ p n i, x.kind = .netCoalesce p n i →
    t = 1 ∧ ∃ tc c, x = .node x.kind tc [strip c] ∧ p = c.parts * n ∧ (D → c.kind.isHead = false)

theorem PostNet.of_plain {t} {x : Plan Row} (h : x.kind.isNet = false) : PostNet D t x :=
  ⟨fun _ _ _ _ e => (by rw [e] at h; cases h), fun _ _ _ e => (by rw [e] at h; cases h),
    fun _ _ _ e => (by rw [e] at h; cases h)⟩

theorem isHead_not_net {k : Kind Row} (h : k.isHead = true) : k.isNet = false := by
  cases k <;> first | rfl | cases h

/-- A prepared node that is not a boundary keeps its kind. -/
theorem prepare_kind {p : Plan Row} {t id p' id'} (h : prepare keep p t id = .ok (p', id')) (hn : p.kind.isNet = false) :
    ∃ cs', p' = .node p.kind p.tc cs' ∧ cs'.length = p.children.length
      ∧ ∀ (i : Nat) c', cs'[i]? = some c' → ∃ c a b, p.children[i]? = some c ∧ prepare keep c (childCount p.kind t i) a = .ok (c', b) := by
  cases p with
  | node k tc cs =>
    obtain ⟨cs', id1, _, l, h1, h2⟩ := prepare_inv h
    rcases prepareNode_inv h2 with ⟨hk, rfl, _⟩ | ⟨c', rest, rfl, hk, h3⟩
    · exact ⟨cs', rfl, l, h1⟩
    · simp only [Plan.kind] at hn; rw [hn] at hk; cases hk

theorem prepare_post {p : Plan Row} {t id p' id'} (h : prepare keep p t id = .ok (p', id')) (hp : Every (PreOk env D) t p) :
    Every (PostNet D) t p' := by
  refine prepare_every (P := PreOk env D) ?_ ?_ ?_ h hp
  · intro t k tc cs cs' hk l hP
    have hn : k.isNet = false := by
      rcases hk with hk | rfl
      · exact hk
      · cases hk : k.isNet with
        | false => rfl
        | true =>
          obtain ⟨c, hc⟩ := (hP.net hk).1
          simp only [Plan.children] at hc
          simp [hc] at l
    exact .of_plain hn
  · intro t k tc c hk
    exact .of_plain (isHead_not_net (by exact hk))
  · intro t k tc c rest id c' c'' hk hne hP hE ⟨a, b, hprep⟩ hins
    have hpp := prepare_parts hprep hE
    obtain ⟨q1, q2, q3⟩ := hP.pre
    have htk : 1 ≤ k.tasks := (hP.net hk).2.1
    cases k
    case shuffle f p n i =>
      cases hins
      refine ⟨?_, by simp [Plan.kind, Kind.withStage], by simp [Plan.kind, Kind.withStage]⟩
      intro h p n i e
      cases e
      exact ⟨_, _, _, rfl⟩
    case netBroadcast p n i =>
      obtain ⟨tc0, b0, tc', y, e, e2⟩ := q2 p n i rfl
      cases e
      rcases insert_inv hins with ⟨e, _⟩ | ⟨_, _, e, _⟩ | ⟨m, e, hpos, rfl⟩
      · cases e
      · cases e
      · cases e
        refine ⟨by simp [Plan.kind, Kind.withStage], ?_, by simp [Plan.kind, Kind.withStage]⟩
        intro p' n' i' e
        cases e
        obtain ⟨cs', e3, l, hi⟩ := prepare_kind hprep rfl
        obtain ⟨y', rfl⟩ := one_of_length (show cs'.length = 1 from l)
        subst e3
        obtain ⟨y0, a1, b1, x1, x2⟩ := hi 0 y' rfl
        simp [Plan.children] at x1
        subst x1
        have hy := prepare_parts x2 ((every_node.mp hE).2 0 y rfl)
        have hs : strip (Plan.node (Plan.node (Kind.broadcast b0) tc' [y]).kind (Plan.node (Kind.broadcast b0) tc' [y]).tc [y']) = y' := rfl
        rw [hs] at hpos ⊢
        refine ⟨_, _, _, _, rfl, Nat.pos_of_ne_zero hpos, ?_⟩
        have hp : p = y.parts * b0 := e2
        rw [hp, hy, Nat.mul_assoc, Nat.mul_div_cancel_left _ (by rw [← hy]; exact Nat.pos_of_ne_zero hpos)]
    case netCoalesce p n i =>
      obtain ⟨tc0, c0, e, e2, e3, e4⟩ := q3 p n i rfl
      cases e
      cases hins
      refine ⟨by simp [Plan.kind, Kind.withStage], by simp [Plan.kind, Kind.withStage], ?_⟩
      intro p' n' i' e
      have hw := withStage_netParts (k := .netCoalesce p n i) rfl htk id
      simp only [Plan.kind] at e
      cases e
      refine ⟨hP.gathers p n i rfl, _, c', rfl, ?_, fun d => ?_⟩
      · rw [hpp, ← e2]; exact hw
      · obtain ⟨cs', e5, _⟩ := prepare_kind hprep e3
        rw [e5]; exact e4 d
    all_goals cases hk

theorem reduceNode_parts (k : Kind Row) (tc) (cs : List (Plan Row)) : (reduceNode k tc cs).parts = (Plan.node k tc cs).parts := by
  unfold reduceNode
  split
  · rename_i hk
    rw [netParts_parts hk, netParts_parts hk]
  · rfl

theorem partialReduce_parts : ∀ p : Plan Row, (partialReduce p).parts = p.parts
  | .node k tc cs => by
    rw [partialReduce, partialReduceAll_eq, reduceNode_parts]
    apply parts_congr
    rw [List.map_map]
    apply List.map_congr_left
    intro c hc
    have : sizeOf c < sizeOf cs := List.sizeOf_lt_of_mem hc
    exact partialReduce_parts c
termination_by p => sizeOf p

end DD.Tree
