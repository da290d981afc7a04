/-
The passes before the boundaries are placed put no gathering node above a `RepartitionExec`.
-/
import Verif.Lemmas.PlanShapeInject

namespace DD.Tree

variable {Row : Type} {env : Env Row}

/-- Any `RepartitionExec` other than a hash repartitioning. -/
def Kind.deals : Kind Row → Bool
  | .otherRepart .. => true
  | _ => false

theorem deals_false {k : Kind Row} : k.deals = false ↔ ∀ n deal, k ≠ .otherRepart n deal := by
  cases k <;> simp [Kind.deals]

theorem notDealt_node {k tc} {cs : List (Plan Row)} :
    NotDealtAndGathered (.node k tc cs) ↔ (k.asParent = .gathers → ∀ c ∈ cs, c.kind.deals = false)
      ∧ ∀ c ∈ cs, NotDealtAndGathered c := by
  have := every_node (P := fun _ x => x.kind.asParent = .gathers → ∀ c ∈ x.children, ∀ n deal, c.kind ≠ .otherRepart n deal)
    (T := 1) (k := k) (tc := tc) (cs := cs)
  refine this.trans (and_congr ?_ ⟨fun h c hc => ?_, fun h i c hi => ?_⟩)
  · simp only [deals_false, Plan.kind, Plan.children]
  · obtain ⟨i, hi, rfl⟩ := List.getElem_of_mem hc
    exact every_const (h i _ (by simp))
  · exact every_const (h c (List.mem_of_getElem? hi))

theorem notDealt_strip {p : Plan Row} (h : NotDealtAndGathered p) : NotDealtAndGathered (stripCoalesce p) := by
  unfold stripCoalesce
  split
  · exact (notDealt_node.mp h).2 _ (by simp)
  · exact h

theorem normalizeNode_notDealt {lp rp k tc} {cs : List (Plan Row)} {p'} (h : normalizeNode env lp rp k tc cs = .ok p')
    (hk : k.asParent = .gathers → ∀ c ∈ cs, c.kind.deals = false) (hc : ∀ c ∈ cs, NotDealtAndGathered c) :
    NotDealtAndGathered p' ∧ p'.kind.deals = k.deals := by
  unfold normalizeNode at h
  split at h
  · split at h
    · split at h
      · cases h
      · cases h
        refine ⟨notDealt_node.mpr ⟨(fun e => by cases e), ?_⟩, rfl⟩
        intro c hm
        simp only [List.mem_cons, List.not_mem_nil, or_false] at hm
        rcases hm with rfl | rfl
        · exact notDealt_node.mpr ⟨(fun e => by cases e), by simpa using notDealt_strip (hc _ (by simp))⟩
        · exact notDealt_node.mpr ⟨(fun e => by cases e), by simpa using hc _ (by simp)⟩
    · cases h; exact ⟨notDealt_node.mpr ⟨hk, hc⟩, rfl⟩
  · split at h
    · cases h
      refine ⟨notDealt_node.mpr ⟨(fun e => by cases e), ?_⟩, rfl⟩
      intro c hm
      simp only [List.mem_cons, List.not_mem_nil, or_false] at hm
      rcases hm with rfl | rfl
      · exact hc _ (by simp)
      · exact notDealt_strip (hc _ (by simp))
    · cases h; exact ⟨notDealt_node.mpr ⟨hk, hc⟩, rfl⟩
  · cases h; exact ⟨notDealt_node.mpr ⟨hk, hc⟩, rfl⟩

theorem normalize_notDealt : ∀ {p p' : Plan Row}, NotDealtAndGathered p → normalize env p = .ok p' →
    NotDealtAndGathered p' ∧ p'.kind.deals = p.kind.deals
  | .node k tc cs, p', hp, h => by
    obtain ⟨p1, p2⟩ := notDealt_node.mp hp
    rw [normalize] at h
    obtain ⟨cs', h1, h⟩ := bind_ok h
    obtain ⟨l, hi⟩ := normalizeAll_inv h1
    have hc : ∀ c' ∈ cs', ∃ c ∈ cs, NotDealtAndGathered c' ∧ c'.kind.deals = c.kind.deals := by
      intro c' hc'
      obtain ⟨i, hi', rfl⟩ := List.getElem_of_mem hc'
      obtain ⟨c, x1, x2⟩ := hi i cs'[i] (by simp)
      have : sizeOf c < sizeOf cs := List.sizeOf_lt_of_mem (List.mem_of_getElem? x1)
      exact ⟨c, List.mem_of_getElem? x1, normalize_notDealt (p2 c (List.mem_of_getElem? x1)) x2⟩
    refine normalizeNode_notDealt h (fun e c' hc' => ?_) fun c' hc' => ?_
    · obtain ⟨c, m, _, e2⟩ := hc c' hc'
      rw [e2]; exact p1 e c m
    · obtain ⟨c, m, e1, _⟩ := hc c' hc'
      exact e1
termination_by p => sizeOf p

theorem insertBroadcast_notDealt : ∀ {p : Plan Row}, NotDealtAndGathered p →
    NotDealtAndGathered (insertBroadcast p) ∧ (insertBroadcast p).kind.deals = p.kind.deals
  | .node k tc cs, hp => by
    obtain ⟨p1, p2⟩ := notDealt_node.mp hp
    have hc : ∀ c' ∈ cs.map insertBroadcast, ∃ c ∈ cs, NotDealtAndGathered c' ∧ c'.kind.deals = c.kind.deals := by
      intro c' hm
      obtain ⟨x, hx, rfl⟩ := List.mem_map.mp hm
      have : sizeOf x < sizeOf cs := List.sizeOf_lt_of_mem hx
      exact ⟨x, hx, insertBroadcast_notDealt (p2 x hx)⟩
    have hb : ∀ {b : Plan Row}, NotDealtAndGathered b → NotDealtAndGathered (broadcastBuild b) := by
      intro b hb
      have hf : ∀ {f} {x : Plan Row}, NotDealtAndGathered x →
          NotDealtAndGathered (fresh (.coalesce f) [fresh (.broadcast 1) [x]]) := by
        intro f x hx
        refine notDealt_node.mpr ⟨fun _ c hm => ?_, fun c hm => ?_⟩
        · simp only [List.mem_cons, List.not_mem_nil, or_false] at hm
          subst hm; rfl
        · simp only [List.mem_cons, List.not_mem_nil, or_false] at hm
          subst hm
          exact notDealt_node.mpr ⟨(fun e => by cases e), by simpa using hx⟩
      unfold broadcastBuild
      split
      · exact hf ((notDealt_node.mp hb).2 _ (by simp))
      · exact hf hb
    rw [insertBroadcast, insertBroadcastAll_eq]
    split
    · rename_i b rest e
      rw [e] at hc
      refine ⟨notDealt_node.mpr ⟨fun hk c hm => ?_, fun c hm => ?_⟩, rfl⟩
      · have hcb : canBroadcast k = false := by
          cases k <;> first | rfl | cases hk
        simp only [hcb, Bool.false_eq_true, if_false] at hm
        obtain ⟨c0, m, _, e2⟩ := hc c hm
        rw [e2]; exact p1 hk c0 m
      · split at hm
        · rcases List.mem_cons.mp hm with rfl | hm
          · obtain ⟨_, _, e1, _⟩ := hc b (by simp)
            exact hb e1
          · obtain ⟨_, _, e1, _⟩ := hc c (by simp [hm])
            exact e1
        · obtain ⟨_, _, e1, _⟩ := hc c hm
          exact e1
    · exact ⟨notDealt_node.mpr ⟨by simp, by simp⟩, rfl⟩
termination_by p => sizeOf p

theorem isolateUnions_notDealt : ∀ {p p' : Plan Row}, NotDealtAndGathered p → isolateUnions p = .ok p' →
    NotDealtAndGathered p' ∧ p'.kind.deals = p.kind.deals
  | .node k tc cs, p', hp, h => by
    obtain ⟨p1, p2⟩ := notDealt_node.mp hp
    rw [isolateUnions] at h
    obtain ⟨cs', h1, h⟩ := bind_ok h
    obtain ⟨l, hi⟩ := isolateUnionsAll_inv h1
    have hc : ∀ c' ∈ cs', ∃ c ∈ cs, NotDealtAndGathered c' ∧ c'.kind.deals = c.kind.deals := by
      intro c' hc'
      obtain ⟨i, hi', rfl⟩ := List.getElem_of_mem hc'
      obtain ⟨c, x1, x2⟩ := hi i cs'[i] (by simp)
      have : sizeOf c < sizeOf cs := List.sizeOf_lt_of_mem (List.mem_of_getElem? x1)
      exact ⟨c, List.mem_of_getElem? x1, isolateUnions_notDealt (p2 c (List.mem_of_getElem? x1)) x2⟩
    have hc1 : ∀ c' ∈ cs', NotDealtAndGathered c' := fun c' hm => (hc c' hm).elim fun _ h => h.2.1
    split at h
    · obtain ⟨n, _, h⟩ := bind_ok h
      cases h
      exact ⟨notDealt_node.mpr ⟨(fun e => by cases e), hc1⟩, rfl⟩
    · cases h
      refine ⟨notDealt_node.mpr ⟨fun e c' hm => ?_, hc1⟩, rfl⟩
      obtain ⟨c, m, _, e2⟩ := hc c' hm
      rw [e2]; exact p1 e c m
termination_by p => sizeOf p

theorem preparePlan_notDealt {p p' : Plan Row} (hp : NotDealtAndGathered p) (hr : ∀ n deal, p.kind ≠ .otherRepart n deal)
    (h : preparePlan env p = .ok p') : NotDealtAndGathered p' := by
  unfold preparePlan at h
  obtain ⟨p1, h1, h⟩ := bind_ok h
  obtain ⟨a1, b1⟩ := normalize_notDealt hp h1
  have a2 : NotDealtAndGathered (if p1.parts > 1 then fresh (.coalesce none) [p1] else p1) := by
    split
    · refine notDealt_node.mpr ⟨fun _ c hm => ?_, by simpa using a1⟩
      simp only [List.mem_cons, List.not_mem_nil, or_false] at hm
      subst hm
      rw [b1, deals_false]; exact hr
    · exact a1
  generalize (if p1.parts > 1 then fresh (.coalesce none) [p1] else p1) = p2 at *
  have a3 : NotDealtAndGathered (if env.broadcastJoins then insertBroadcast p2 else p2) := by
    split
    · exact (insertBroadcast_notDealt a2).1
    · exact a2
  generalize hp3 : (if env.broadcastJoins then insertBroadcast p2 else p2) = p3 at *
  simp only [hp3] at h
  split at h
  · exact (isolateUnions_notDealt a3 h).1
  · cases h; exact a3

end DD.Tree
