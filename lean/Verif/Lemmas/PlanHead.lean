/-
The head stage runs on the coordinator as a single task, whatever task count the planner annotated it with.
-/
import Verif.Lemmas.PlanPasses
import Verif.Lemmas.PlanShapeInject

namespace DD.Tree

variable {Row : Type} {env : Env Row} {keep : Bool}

/-! ### What the coordinator sees -/

/-- The same for the only task of the head stage. -/
def SameHead (a b : Ran Row) : Prop := a.parts = b.parts ∧ ∀ q, a.exec false ⟨0, 1⟩ q = b.exec false ⟨0, 1⟩ q

theorem SameHead.refl (a : Ran Row) : SameHead a a := ⟨rfl, fun _ => rfl⟩

theorem SameHead.rows {a b : Ran Row} (h : SameHead a b) : a.rows false ⟨0, 1⟩ = b.rows false ⟨0, 1⟩ := by
  unfold Ran.rows
  rw [h.1]
  exact flatMap_congr' fun q _ => h.2 q

/-- Plans that differ only in the task counts annotated and in the leaves of their first stage. -/
inductive HeadEq : Plan Row → Plan Row → Prop where
  | net {k tc tc' cs} : k.isNet = true → HeadEq (.node k tc cs) (.node k tc' cs)
  | leaf {k tc k' tc'} : k.isNet = false → k'.isNet = false → SameHead (run (.node k tc [])) (run (.node k' tc' [])) →
      HeadEq (.node k tc []) (.node k' tc' [])
  | node {k tc tc' cs cs'} : k.isNet = false → (∀ ws m, k ≠ .ciu ws m) → cs ≠ [] → cs'.length = cs.length →
      (∀ (i : Nat) c c', cs[i]? = some c → cs'[i]? = some c' → HeadEq c c') → HeadEq (.node k tc cs) (.node k tc' cs')
  | refl {p} : HeadEq p p

theorem unionExec_same : ∀ {as bs : List (Ran Row)}, bs.length = as.length →
    (∀ (i : Nat) a b, as[i]? = some a → bs[i]? = some b → SameHead a b) →
    (as.map (·.parts)).sum = (bs.map (·.parts)).sum ∧ ∀ q, unionExec false ⟨0, 1⟩ as q = unionExec false ⟨0, 1⟩ bs q
  | [], [], _, _ => ⟨rfl, fun _ => rfl⟩
  | a :: as, b :: bs, hl, h => by
    have h0 := h 0 a b rfl rfl
    obtain ⟨h1, h2⟩ := unionExec_same (as := as) (bs := bs) (by simpa using hl)
      fun i a b e1 e2 => h (i + 1) a b (by simpa using e1) (by simpa using e2)
    refine ⟨by simp only [List.map_cons, List.sum_cons]; rw [h0.1, h1], fun q => ?_⟩
    simp only [unionExec]
    rw [h0.1, h0.2, h2]

theorem runKind_same {k : Kind Row} (hn : k.isNet = false) (hc : ∀ ws m, k ≠ .ciu ws m) {as bs : List (Ran Row × Ran Row)}
    (hl : bs.length = as.length) (h : ∀ (i : Nat) a b, as[i]? = some a → bs[i]? = some b → SameHead a.1 b.1) :
    SameHead (runKind k as) (runKind k bs) := by
  have hg : ∀ i, SameHead (as.getD i (.none, .none)).1 (bs.getD i (.none, .none)).1 := by
    intro i
    by_cases hi : i < as.length
    · have e1 : as[i]? = some as[i] := by simp [hi]
      have e2 : bs[i]? = some (bs[i]'(by omega)) := by simp [hl, hi]
      simp only [List.getD_eq_getElem?_getD, e1, e2, Option.getD_some]
      exact h i _ _ e1 e2
    · simp only [List.getD_eq_getElem?_getD]
      rw [List.getElem?_eq_none (by omega), List.getElem?_eq_none (by omega)]
      exact .refl _
  have hmap : ∀ q, (as.map fun c => c.1.exec false ⟨0, 1⟩ q) = bs.map fun c => c.1.exec false ⟨0, 1⟩ q := by
    intro q
    apply List.ext_getElem?
    intro i
    rw [List.getElem?_map, List.getElem?_map]
    by_cases hi : i < as.length
    · have e1 : as[i]? = some as[i] := by simp [hi]
      have e2 : bs[i]? = some (bs[i]'(by omega)) := by simp [hl, hi]
      rw [e1, e2]
      exact congrArg some ((h i _ _ e1 e2).2 q)
    · rw [List.getElem?_eq_none (by omega), List.getElem?_eq_none (by omega)]
  have h0 := hg 0
  have h1 := hg 1
  cases k with
  | leaf | distLeaf => exact .refl _
  | op g red => exact ⟨h0.1, fun q => by simp only [runKind]; rw [hmap q]⟩
  | join m s =>
    have hcol : ∀ q, collectExec s (as.getD 0 (.none, .none)).1 (as.getD 1 (.none, .none)).1 false ⟨0, 1⟩ q
        = collectExec s (bs.getD 0 (.none, .none)).1 (bs.getD 1 (.none, .none)).1 false ⟨0, 1⟩ q := by
      intro q
      unfold collectExec
      rw [h0.2, h1.2, h1.1, h1.rows]
    cases m with
    | partitioned => exact ⟨h0.1, fun q => by simp only [runKind]; rw [h0.2, h1.2]⟩
    | collect => exact ⟨h1.1, hcol⟩
    | nested => exact ⟨h1.1, hcol⟩
    | cross => exact ⟨h1.1, hcol⟩
  | union =>
    have := unionExec_same (as := as.map (·.1)) (bs := bs.map (·.1)) (by simpa using hl) (by
      intro i a b e1 e2
      rw [List.getElem?_map] at e1 e2
      cases ea : as[i]? with
      | none => rw [ea] at e1; cases e1
      | some x =>
        cases eb : bs[i]? with
        | none => rw [eb] at e2; cases e2
        | some y =>
          rw [ea] at e1; rw [eb] at e2
          cases e1; cases e2
          exact h i x y ea eb)
    simp only [List.map_map] at this
    exact this
  | ciu ws m => exact absurd rfl (hc ws m)
  | hashRepart f n => exact ⟨rfl, fun q => by simp only [runKind]; rw [h0.rows]⟩
  | otherRepart n deal =>
    refine ⟨rfl, fun q => ?_⟩
    simp only [runKind]
    rw [h0.1, List.map_congr_left fun q _ => h0.2 q]
  | coalesce f => exact ⟨rfl, fun q => by simp only [runKind]; rw [h0.rows]⟩
  | spm f => exact ⟨rfl, fun q => by simp only [runKind]; rw [h0.rows]⟩
  | broadcast n => exact ⟨by simp only [runKind]; rw [h0.1], fun q => by simp only [runKind]; rw [h0.1, h0.2]⟩
  | shuffle | netCoalesce | netBroadcast => cases hn

theorem HeadEq.same {p q : Plan Row} (h : HeadEq p q) : SameHead (run p) (run q) := by
  induction h with
  | net hk => rw [run_node, run_node]; exact .refl _
  | leaf _ _ h => exact h
  | @node k tc tc' cs cs' hn hc _ hl _ ih =>
    rw [run_node, run_node]
    refine runKind_same hn hc (by simpa using hl) fun i a b e1 e2 => ?_
    rw [List.getElem?_map] at e1 e2
    cases ea : cs[i]? with
    | none => rw [ea] at e1; cases e1
    | some x =>
      cases eb : cs'[i]? with
      | none => rw [eb] at e2; cases e2
      | some y =>
        rw [ea] at e1; rw [eb] at e2
        cases e1; cases e2
        exact ih i x y ea eb
  | refl => exact .refl _

/-! ### The passes after the propagation -/

theorem prepare_headEq {p q : Plan Row} (h : HeadEq p q) :
    ∀ {id p' id'}, prepare keep p 1 id = .ok (p', id') → ∃ q', prepare keep q 1 id = .ok (q', id') ∧ HeadEq p' q' := by
  induction h with
  | @net k tc tc' cs hk =>
    intro id p' id' h
    rw [prepare] at h ⊢
    obtain ⟨⟨cs', id1⟩, h1, h2⟩ := bind_ok h
    rw [h1]
    show ∃ q', prepareNode keep (.node k tc' cs') 1 id1 = _ ∧ _
    replace h2 : prepareNode keep (.node k tc cs') 1 id1 = .ok (p', id') := h2
    cases cs' with
    | nil => cases h2; exact ⟨_, rfl, .net hk⟩
    | cons c rest =>
      simp only [prepareNode, hk, Bool.not_true, Bool.false_eq_true, if_false] at h2 ⊢
      split at h2
      · cases h2; rw [if_pos (by assumption)]; exact ⟨_, rfl, .refl⟩
      · rw [if_neg (by assumption)]
        obtain ⟨c', h3, h4⟩ := bind_ok h2
        cases h4
        rw [h3]
        exact ⟨_, rfl, .net (by rw [withStage_isNet]; exact hk)⟩
  | leaf h1 h2 h =>
    intro id p' id' hp
    cases hp
    exact ⟨_, rfl, .leaf h1 h2 h⟩
  | @node k tc tc' cs cs' hn hc hne hl _ ih =>
    intro id p' id' hp
    have hcc : ∀ n, childCounts k 1 n = List.replicate n 1 := by
      intro n
      cases k
      case ciu ws m => exact absurd rfl (hc ws m)
      all_goals first | rfl | cases hn
    have hall : ∀ (as bs : List (Plan Row)), bs.length = as.length →
        (∀ (i : Nat) c c', as[i]? = some c → bs[i]? = some c' → ∀ {id p' id'}, prepare keep c 1 id = .ok (p', id') →
          ∃ q', prepare keep c' 1 id = .ok (q', id') ∧ HeadEq p' q') →
        ∀ {id as' id'}, prepareAll keep as (List.replicate as.length 1) id = .ok (as', id') →
          ∃ bs', prepareAll keep bs (List.replicate bs.length 1) id = .ok (bs', id') ∧ as'.length = as.length
            ∧ bs'.length = as'.length
            ∧ ∀ (i : Nat) c c', as'[i]? = some c → bs'[i]? = some c' → HeadEq c c' := by
      intro as
      induction as with
      | nil =>
        intro bs hl _ id as' id' h
        have : bs = [] := List.length_eq_zero_iff.mp hl
        subst this
        cases h
        exact ⟨[], rfl, rfl, rfl, fun i c c' e => by simp at e⟩
      | cons a as iha =>
        intro bs hl hi id as' id' h
        cases bs with
        | nil => simp at hl
        | cons b bs =>
          simp only [List.length_cons, List.replicate_succ] at h ⊢
          rw [prepareAll] at h ⊢
          obtain ⟨⟨a', id1⟩, h1, h⟩ := bind_ok h
          obtain ⟨⟨as1, id2⟩, h2, h⟩ := bind_ok h
          cases h
          obtain ⟨b', e1, e2⟩ := hi 0 a b rfl rfl h1
          obtain ⟨bs', e3, e4, e5, e6⟩ := iha bs (by simpa using hl)
            (fun i c c' x1 x2 => hi (i + 1) c c' (by simpa using x1) (by simpa using x2)) h2
          rw [e1]
          show ∃ bs', (do let (cs, id) ← prepareAll keep bs (List.replicate bs.length 1) id1; Except.ok (b' :: cs, id)) = _ ∧ _
          rw [e3]
          refine ⟨b' :: bs', rfl, by simp [e4], by simp [e5], fun i c c' x1 x2 => ?_⟩
          cases i with
          | zero => simp at x1 x2; subst x1; subst x2; exact e2
          | succ i => exact e6 i c c' (by simpa using x1) (by simpa using x2)
    rw [prepare, hcc] at hp
    obtain ⟨⟨cs1, id1⟩, h1, h2⟩ := bind_ok hp
    obtain ⟨cs2, e1, e2, e3, e4⟩ := hall cs cs' hl ih h1
    have hnode : ∀ (tc : TaskCount) (xs : List (Plan Row)), prepareNode keep (.node k tc xs) 1 id1 = .ok (.node k tc xs, id1) := by
      intro tc xs
      cases xs with
      | nil => rfl
      | cons => simp [prepareNode, hn]
    rw [prepare, hcc, e1]
    show ∃ q', prepareNode keep (.node k tc' cs2) 1 id1 = _ ∧ _
    replace h2 : prepareNode keep (.node k tc cs1) 1 id1 = .ok (p', id') := h2
    rw [hnode] at h2 ⊢
    cases h2
    refine ⟨_, rfl, .node hn hc ?_ e3 e4⟩
    intro e
    rw [e] at e2
    exact hne (List.length_eq_zero_iff.mp e2.symm)
  | refl => intro id p' id' h; exact ⟨p', h, .refl⟩

theorem partialReduce_headEq {p q : Plan Row} (h : HeadEq p q) : HeadEq (partialReduce p) (partialReduce q) := by
  induction h with
  | @net k tc tc' cs hk =>
    rw [partialReduce, partialReduce]
    unfold reduceNode
    split
    · exact .net hk
    · exact .net hk
  | leaf h1 h2 h =>
    rw [partialReduce, partialReduce]
    simp only [partialReduceAll, reduceNode, h1, h2]
    exact .leaf h1 h2 h
  | @node k tc tc' cs cs' hn hc hne hl _ ih =>
    have e : ∀ cs : List (Plan Row), partialReduceAll cs = cs.map partialReduce := by
      intro cs
      induction cs with
      | nil => rfl
      | cons c cs ih => rw [partialReduceAll, ih]; rfl
    rw [partialReduce, partialReduce, e, e]
    simp only [reduceNode, hn]
    refine .node hn hc (by simpa using hne) (by simpa using hl) fun i c c' x1 x2 => ?_
    rw [List.getElem?_map] at x1 x2
    cases ea : cs[i]? with
    | none => rw [ea] at x1; cases x1
    | some x =>
      cases eb : cs'[i]? with
      | none => rw [eb] at x2; cases x2
      | some y =>
        rw [ea] at x1; rw [eb] at x2
        cases x1; cases x2
        exact ih i x y ea eb
  | refl => exact .refl

end DD.Tree
