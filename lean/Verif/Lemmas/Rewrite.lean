import Verif.Spec.Rewrite
import Verif.Lemmas.Order
import Verif.Lemmas.PlanReduce
import Verif.Lemmas.PlanPasses

namespace DD.Tree

open DD.Limit

variable {Row : Type}

/-! ### The plan of a stage, apart from the stages it reads -/

theorem decodedAll_eq (cs : List (Plan Row)) : decodedAll cs = cs.map decoded := by
  induction cs with
  | nil => rfl
  | cons c cs ih => rw [decodedAll, ih]; rfl

theorem connectAll_eq (f : Nat → Plan Row) (cs : List (Plan Row)) : connectAll f cs = cs.map (connect f) := by
  induction cs with
  | nil => rfl
  | cons c cs ih => rw [connectAll, ih]; rfl

theorem stageInputsAll_eq (cs : List (Plan Row)) : stageInputsAll cs = cs.flatMap stageInputs := by
  induction cs with
  | nil => rfl
  | cons c cs ih => rw [stageInputsAll, ih]; rfl

/-- The boundaries a stage ends at have one input each. -/
inductive OneTop : Plan Row → Prop where
  | net {k tc c} : k.isNet = true → OneTop (.node k tc [c])
  | inner {k tc cs} : k.isNet = false → (∀ c ∈ cs, OneTop c) → OneTop (.node k tc cs)

/-- All boundaries have one input each, and so has the head of such an input. -/
inductive OneInput : Plan Row → Prop where
  | net {k tc c} : k.isNet = true → (c.kind.isHead = true → c.children.length = 1) → OneInput c → OneInput (.node k tc [c])
  | inner {k tc cs} : k.isNet = false → (∀ c ∈ cs, OneInput c) → OneInput (.node k tc cs)

theorem connect_decoded {f : Nat → Plan Row} {c : Plan Row} (h : OneTop c) : (∀ x ∈ stageInputs c, f x.1 = x.2) →
    connect f (decoded c) = c := by
  induction h with
  | @net k tc c hk =>
    intro hf
    have := hf (k.num, c) (by simp [stageInputs, hk])
    simp only [decoded, hk, if_true, connect]
    rw [this]
  | @inner k tc cs hk _ ih =>
    intro hf
    simp only [decoded, connect, hk, Bool.false_eq_true, if_false]
    rw [decodedAll_eq, connectAll_eq, List.map_map]
    congr 1
    conv => rhs; rw [← List.map_id cs]
    refine List.map_congr_left fun c hc => ih c hc fun x hx => hf x ?_
    simp only [stageInputs, hk, Bool.false_eq_true, if_false]
    rw [stageInputsAll_eq]
    exact List.mem_flatMap.mpr ⟨c, hc, hx⟩

theorem stageWith_mem {l : List (Nat × Plan Row)} (h : (l.map (·.1)).Nodup) : ∀ x ∈ l, stageWith l x.1 = x.2 := by
  intro x hx
  have : l.find? (fun y => y.1 == x.1) = some x := by
    induction l with
    | nil => cases hx
    | cons y l ih =>
      simp only [List.map_cons, List.nodup_cons] at h
      rcases List.mem_cons.mp hx with rfl | hx
      · simp
      · have hne : y.1 ≠ x.1 := fun e => h.1 (e ▸ List.mem_map.mpr ⟨x, hx, rfl⟩)
        rw [List.find?_cons_of_neg (by simpa using hne)]
        exact ih h.2 hx
  rw [stageWith, this]

/-! ### Handlers -/

theorem MayReplace.refl (s : Plan Row) : MayReplace s s :=
  ⟨fun _ r' h => ⟨r', h, rfl, fun _ _ => .refl _⟩, fun _ _ h => h⟩

theorem MayReplace.trans {s s' s'' : Plan Row} (h : MayReplace s s') (g : MayReplace s' s'') : MayReplace s s'' := by
  refine ⟨fun f r h2 => ?_, fun f o ho => g.order f o (h.order f o ho)⟩
  obtain ⟨r1, h1, e1, p1⟩ := g.rows f r h2
  obtain ⟨r0, h0, e0, p0⟩ := h.rows f r1 h1
  exact ⟨r0, h0, e1.trans e0, fun ctx q => (p1 ctx q).trans (p0 ctx q)⟩

theorem handle_replaces {hs : HandlerChain (RewriteHandler Row)} (hh : ∀ h ∈ hs.custom ++ hs.builtin, KeepsStages h) {s s' : Plan Row}
    (h : handleRewrite hs s = .ok s') : MayReplace s s' := by
  unfold handleRewrite HandlerChain.tryFold at h
  generalize hs.custom ++ hs.builtin = l at hh h
  induction l generalizing s with
  | nil => cases h; exact .refl _
  | cons x l ih =>
    rw [List.foldlM_cons] at h
    obtain ⟨s1, h1, h⟩ := bind_ok h
    exact (hh x (by simp) s s1 h1).trans (ih (fun y hy => hh y (by simp [hy])) h)

/-! ### Rewritten plans -/

theorem rewriteStagesAll_inv {hs : HandlerChain (RewriteHandler Row)} {net : Bool} : ∀ {cs cs' : List (Plan Row)},
    rewriteStagesAll hs net cs = .ok cs' → cs'.length = cs.length ∧ ∀ (i : Nat) c c', cs[i]? = some c → cs'[i]? = some c' →
      ∃ c1, rewriteStages hs c = .ok c1 ∧ if net then rewriteStage hs c1 = .ok c' else c' = c1
  | [], cs', h => by rw [rewriteStagesAll] at h; cases h; simp
  | c :: cs, cs', h => by
    rw [rewriteStagesAll] at h
    obtain ⟨c1, h1, h⟩ := bind_ok h
    obtain ⟨c2, h2, h⟩ := bind_ok h
    obtain ⟨cs1, h3, h⟩ := bind_ok h
    cases h
    obtain ⟨i1, i2⟩ := rewriteStagesAll_inv h3
    refine ⟨by simp [i1], ?_⟩
    intro i x y hx hy
    cases i with
    | zero =>
      simp at hx hy
      subst hx hy
      refine ⟨c1, h1, ?_⟩
      cases net with
      | true => exact h2
      | false => simp at h2; exact h2.symm
    | succ i => exact i2 i x y (by simpa using hx) (by simpa using hy)

theorem rewriteStages_kind {hs : HandlerChain (RewriteHandler Row)} {p q : Plan Row} (h : rewriteStages hs p = .ok q) : q.kind = p.kind := by
  cases p with
  | node k tc cs =>
    rw [rewriteStages] at h
    obtain ⟨cs', _, h⟩ := bind_ok h
    cases h
    rfl

/-- The boundaries a stage ends at are the same after the stages below were given to the handlers. -/
theorem rewriteStages_top {hs : HandlerChain (RewriteHandler Row)} {p : Plan Row} (hp : OneInput p) : ∀ {q}, rewriteStages hs p = .ok q →
    OneTop q ∧ (stageInputs q).map (·.1) = (stageInputs p).map (·.1) := by
  induction hp with
  | @net k tc c hk _ _ ih =>
    intro q h
    rw [rewriteStages] at h
    obtain ⟨cs', h1, h⟩ := bind_ok h
    cases h
    obtain ⟨hl, _⟩ := rewriteStagesAll_inv h1
    match cs', hl with
    | [c'], _ => exact ⟨.net hk, by simp [stageInputs, hk]⟩
  | @inner k tc cs hk hall ih =>
    intro q h
    rw [rewriteStages] at h
    obtain ⟨cs', h1, h⟩ := bind_ok h
    cases h
    obtain ⟨hl, hi⟩ := rewriteStagesAll_inv h1
    rw [hk] at hi
    have key : ∀ (i : Nat) c c', cs[i]? = some c → cs'[i]? = some c' →
        OneTop c' ∧ (stageInputs c').map (·.1) = (stageInputs c).map (·.1) := by
      intro i c c' e1 e2
      obtain ⟨c1, e3, e4⟩ := hi i c c' e1 e2
      simp only [Bool.false_eq_true, if_false] at e4
      subst e4
      exact ih c (List.mem_of_getElem? e1) e3
    refine ⟨.inner hk fun c' hc => ?_, ?_⟩
    · obtain ⟨i, hi', rfl⟩ := List.getElem_of_mem hc
      exact (key i (cs[i]'(by omega)) _ (by simp) (by simp)).1
    · simp only [stageInputs, hk, Bool.false_eq_true, if_false]
      rw [stageInputsAll_eq, stageInputsAll_eq]
      clear h1 hi ih h
      induction cs generalizing cs' with
      | nil => obtain rfl := List.length_eq_zero_iff.mp hl; rfl
      | cons c cs ih2 =>
        cases cs' with
        | nil => simp at hl
        | cons c' cs' =>
          rw [List.flatMap_cons, List.flatMap_cons, List.map_append, List.map_append, (key 0 c c' rfl rfl).2,
            ih2 (fun c hc => hall c (by simp [hc])) cs' (by simpa using hl) fun i x y e1 e2 => key (i + 1) x y (by simpa using e1) (by simpa using e2)]

theorem topNums_sublist (p : Plan Row) (hp : OneInput p) : ((stageInputs p).map (·.1)).Sublist (stageNums p) := by
  induction hp with
  | @net k tc c hk _ _ _ =>
    rw [stageNums, if_pos hk]
    simp only [stageInputs, hk, if_true, List.map_cons, List.map_nil]
    exact List.sublist_append_right _ _
  | @inner k tc cs hk hall ih =>
    rw [stageNums]
    simp only [stageInputs, hk, Bool.false_eq_true, if_false, List.append_nil]
    rw [stageInputsAll_eq]
    clear hk
    induction cs with
    | nil => exact List.nil_sublist _
    | cons c cs ih2 =>
      rw [List.flatMap_cons, List.map_append, stageNumsAll]
      exact (ih c (by simp)).append (ih2 (fun c hc => hall c (by simp [hc])) fun c hc => ih c (by simp [hc]))

/-- Handlers that meet the criteria may replace the plan of a stage. -/
theorem rewriteStage_replaces {hs : HandlerChain (RewriteHandler Row)} (hh : ∀ h ∈ hs.custom ++ hs.builtin, KeepsStages h) {c c1 c2 : Plan Row}
    (hc : OneInput c) (hnd : (stageNums c).Nodup) (h1 : rewriteStages hs c = .ok c1) (h2 : rewriteStage hs c1 = .ok c2) :
    ∃ f s s', MayReplace s s' ∧ c1 = connect f s ∧ c2 = connect f s' := by
  unfold rewriteStage at h2
  obtain ⟨s', h3, h2⟩ := bind_ok h2
  cases h2
  obtain ⟨h4, h5⟩ := rewriteStages_top hc h1
  refine ⟨_, _, s', handle_replaces hh h3, (connect_decoded h4 (stageWith_mem ?_)).symm, rfl⟩
  rw [h5]
  exact hnd.sublist (topNums_sublist c hc)

/-! ### Operators that return their input in another order -/

/-- The operator returns the rows it gets. -/
def Permutes (g : Op Row) : Prop := ∀ as x, g.may as x → x.Perm (as.headD [])

theorem Permutes.hom {g : Op Row} (h : Permutes g) (E : RowEq Row) : Hom E E g := by
  refine ⟨fun x hx => E.ofPerm (h _ _ hx), fun a b x y hx hy => ?_, fun a b x hab hx => ?_⟩
  · have hz := g.ok true ⟨0, 1⟩ 0 [a ++ b]
    exact ⟨_, hz, E.ofPerm (((h _ _ hx).append (h _ _ hy)).trans (h _ _ hz).symm)⟩
  · have hz := g.ok true ⟨0, 1⟩ 0 [b]
    exact ⟨_, hz, E.trans (E.ofPerm (h _ _ hx)) (E.trans hab (E.symm (E.ofPerm (h _ _ hz))))⟩

theorem Permutes.sub {g : Op Row} (h : Permutes g) (E : RowEq Row) {red tc} {c : Plan Row} :
    E.sub (Answer (.node (.op g red) tc [c])) (Answer c) := by
  intro x hx
  obtain ⟨a, ha, hx⟩ := answer_one.mp hx
  exact ⟨a, ha, E.ofPerm (h _ _ hx)⟩

/-- The operator is put below the head of a plan, which the worker takes off, or on top of a plan that has none. -/
def under (g : Op Row) : Plan Row → Plan Row
  | .node k tc (c :: cs) => if k.isHead then .node k tc (fresh (.op g none) [c] :: cs) else fresh (.op g none) [.node k tc (c :: cs)]
  | p => fresh (.op g none) [p]

theorem under_plain {g : Op Row} {p : Plan Row} (h : p.kind.isHead = false) : under g p = fresh (.op g none) [p] := by
  cases p with
  | node k tc cs =>
    cases cs with
    | nil => rfl
    | cons c cs => simp only [under, show k.isHead = false from h, Bool.false_eq_true, if_false]

/-- `Deco p p'`: `p'` is `p` with operators that permute rows in the inputs of its boundaries. -/
inductive Deco : Plan Row → Plan Row → Prop where
  | inner {k tc cs ds} : k.isNet = false → ds.length = cs.length → (∀ (i : Nat) c d, cs[i]? = some c → ds[i]? = some d → Deco c d) →
      Deco (.node k tc cs) (.node k tc ds)
  | net {k tc c d g} : k.isNet = true → Deco c d → Permutes g → Deco (.node k tc [c]) (.node k tc [under g d])

theorem Deco.kind {p p' : Plan Row} (h : Deco p p') : p'.kind = p.kind := by cases h <;> rfl

theorem Deco.kid1 {k : Kind Row} {tc c p'} (h : Deco (.node k tc [c]) p') (hk : k.isNet = false) :
    ∃ d, Deco c d ∧ p' = .node k tc [d] := by
  cases h with
  | @inner _ _ _ ds _ hl hi =>
    match ds, hl with
    | [d], _ => exact ⟨d, hi 0 c d rfl rfl, rfl⟩
  | net h => rw [hk] at h; cases h

theorem Deco.kid2 {k : Kind Row} {tc b c p'} (h : Deco (.node k tc [b, c]) p') (hk : k.isNet = false) :
    ∃ d e, Deco b d ∧ Deco c e ∧ p' = .node k tc [d, e] := by
  cases h with
  | @inner _ _ _ ds _ hl hi =>
    match ds, hl with
    | [d, e], _ => exact ⟨d, e, hi 0 b d rfl rfl, hi 1 c e rfl rfl, rfl⟩

theorem Deco.kids {k : Kind Row} {tc cs p'} (h : Deco (.node k tc cs) p') (hk : k.isNet = false) :
    ∃ ds, ds.length = cs.length ∧ (∀ (i : Nat) c d, cs[i]? = some c → ds[i]? = some d → Deco c d) ∧ p' = .node k tc ds := by
  cases h with
  | @inner _ _ _ ds _ hl hi => exact ⟨ds, hl, hi, rfl⟩
  | net h => rw [hk] at h; cases h

theorem Deco.net_inv {k : Kind Row} {tc c p'} (h : Deco (.node k tc [c]) p') (hk : k.isNet = true) :
    ∃ d g, Deco c d ∧ Permutes g ∧ p' = .node k tc [under g d] := by
  cases h with
  | inner h => rw [hk] at h; cases h
  | @net _ _ _ d g _ h1 h2 => exact ⟨d, g, h1, h2, rfl⟩

theorem isHead_plain {k : Kind Row} (h : k.isHead = true) : k.isNet = false := by
  cases k <;> first | rfl | cases h

/-- The input of a boundary. -/
theorem Deco.input {c d : Plan Row} {g : Op Row} (h : Deco c d) (hg : Permutes g) (hone : c.kind.isHead = true → c.children.length = 1)
    {N P E} (ih : ∀ x, Deco (strip c) x → Legal false N x ⟨P, none, false, E⟩ ∧ E.sub (Answer x) (Answer (strip c))) :
    Legal false N (strip (under g d)) ⟨P, none, false, E⟩ ∧ E.sub (Answer (under g d)) (Answer c) := by
  have put : ∀ x, Deco (strip c) x → Legal false N (fresh (.op g none) [x]) ⟨P, none, false, E⟩
      ∧ E.sub (Answer (fresh (.op g none) [x])) (Answer (strip c)) := by
    intro x hx
    obtain ⟨l, e⟩ := ih x hx
    exact ⟨.opLocal (hg.hom E) (by intro _ h; cases h) (by simp) l, RowEq.sub_trans (hg.sub E) e⟩
  cases hk : c.kind.isHead with
  | false =>
    have hd : d.kind.isHead = false := by rw [h.kind]; exact hk
    have hs : strip c = c := by
      cases c with
      | node k tc cs => cases cs with
        | nil => rfl
        | cons a cs => simp only [strip, show k.isHead = false from hk, Bool.false_eq_true, if_false]
    rw [hs] at put
    obtain ⟨l, e⟩ := put d h
    rw [under_plain hd]
    exact ⟨l, e⟩
  | true =>
    cases c with
    | node k tc cs =>
      have hl := hone hk
      change cs.length = 1 at hl
      change k.isHead = true at hk
      match cs, hl with
      | [x], _ =>
        obtain ⟨y, hy, rfl⟩ := h.kid1 (isHead_plain hk)
        simp only [strip, hk, if_true] at put
        obtain ⟨l, e⟩ := put y hy
        simp only [under, hk, if_true, strip]
        refine ⟨l, ?_⟩
        cases k with
        | hashRepart => exact answer_sub_pass (fun _ _ => Iff.rfl) (fun _ _ => Iff.rfl) e
        | otherRepart => exact answer_sub_pass (fun _ _ => Iff.rfl) (fun _ _ => Iff.rfl) e
        | broadcast => exact answer_sub_pass (fun _ _ => Iff.rfl) (fun _ _ => Iff.rfl) e
        | _ => cases hk

theorem under_children {g : Op Row} (d : Plan Row) (h : (under g d).kind.isHead = true) :
    (under g d).kind = d.kind ∧ (under g d).children.length = d.children.length := by
  cases d with
  | node k tc cs =>
    cases cs with
    | nil => cases h
    | cons c cs =>
      simp only [under] at h ⊢
      split at h
      · rename_i hk
        simp only [hk, if_true]
        exact ⟨rfl, rfl⟩
      · cases h

theorem Deco.length {p p' : Plan Row} (h : Deco p p') : p'.children.length = p.children.length := by
  cases h with
  | inner _ hl => exact hl
  | net => rfl

theorem Legal.deco {T : Nat} {p : Plan Row} {I : Info Row} (h : Legal false T p I) (hT : 0 < T) :
    ∀ {p'}, Deco p p' → Legal false T p' I ∧ I.eqv.sub (Answer p') (Answer p) := by
  induction h with
  | leaf hne =>
    intro p' hd
    obtain ⟨ds, hl, _, rfl⟩ := hd.kids rfl
    obtain rfl := List.length_eq_zero_iff.mp hl
    exact ⟨.leaf hne, RowEq.sub_refl _ _⟩
  | distLeaf h0 h1 h2 h3 h4 =>
    intro p' hd
    obtain ⟨ds, hl, _, rfl⟩ := hd.kids rfl
    obtain rfl := List.length_eq_zero_iff.mp hl
    exact ⟨.distLeaf h0 h1 h2 h3 h4, RowEq.sub_refl _ _⟩
  | opLocal hg hr hd' _ ih =>
    intro p' hd
    obtain ⟨d, h1, rfl⟩ := hd.kid1 rfl
    exact ⟨.opLocal hg hr hd' (ih hT h1).1, answer_sub1 hg.congr (ih hT h1).2⟩
  | @opKeyed tc g red cs T P hs Es d' E' hk hred hd' hne hl hl' hcs ih =>
    intro p' hd
    obtain ⟨ds, hdl, hds, rfl⟩ := hd.kids rfl
    have get : ∀ (i : Nat) d, ds[i]? = some d → ∃ c, cs[i]? = some c ∧ Deco c d := by
      intro i d e
      have := (List.getElem?_eq_some_iff.mp e).1
      exact ⟨cs[i]'(by omega), by simp, hds i _ d (by simp) e⟩
    refine ⟨.opKeyed hk hred hd' (by rintro rfl; exact hne (List.length_eq_zero_iff.mp (by simpa using hdl.symm))) (by omega) (by omega) ?_, ?_⟩
    · intro i d h E e1 e2 e3
      obtain ⟨c, e, hcd⟩ := get i d e1
      exact (ih i c h E e e2 e3 hT hcd).1
    · refine answer_sub hk.congr hdl hl' ?_
      intro i d c E e1 e2 e3
      have := (List.getElem?_eq_some_iff.mp e2).1
      exact (ih i c (hs[i]'(by omega)) E e2 (by simp) e3 hT (hds i c d e2 e1)).2
  | @opSingle tc g red cs Es E' hg hred hne hl hcs ih =>
    intro p' hd
    obtain ⟨ds, hdl, hds, rfl⟩ := hd.kids rfl
    refine ⟨.opSingle hg hred (by rintro rfl; exact hne (List.length_eq_zero_iff.mp (by simpa using hdl.symm))) (by omega) ?_, ?_⟩
    · intro i d E e1 e2
      have := (List.getElem?_eq_some_iff.mp e1).1
      exact (ih i (cs[i]'(by omega)) E (by simp) e2 hT (hds i _ d (by simp) e1)).1
    · refine answer_sub hg hdl hl ?_
      intro i d c E e1 e2 e3
      exact (ih i c E e2 e3 hT (hds i c d e2 e1)).2
  | joinSafe hm hs hd' _ _ ihb ihp =>
    intro p' hd
    obtain ⟨d, e, h1, h2, rfl⟩ := hd.kid2 rfl
    exact ⟨.joinSafe hm hs hd' (ihb hT h1).1 (ihp hT h2).1, answer_sub_join (safe_unordered hs) (ihb hT h1).2 (ihp hT h2).2⟩
  | joinSingle hm hu _ _ ihb ihp =>
    intro p' hd
    obtain ⟨d, e, h1, h2, rfl⟩ := hd.kid2 rfl
    exact ⟨.joinSingle hm hu (ihb hT h1).1 (ihp hT h2).1, answer_sub_join hu (ihb hT h1).2 (ihp hT h2).2⟩
  | joinPart he hn hd' _ _ ihl ihr =>
    intro p' hd
    obtain ⟨d, e, h1, h2, rfl⟩ := hd.kid2 rfl
    exact ⟨.joinPart he hn hd' (ihl hT h1).1 (ihr hT h2).1, answer_sub_join (unordered_of_none hn) (ihl hT h1).2 (ihr hT h2).2⟩
  | @union tc cs T E Ps hne hl hcs ih =>
    intro p' hd
    obtain ⟨ds, hdl, hds, rfl⟩ := hd.kids rfl
    refine ⟨.union (by rintro rfl; exact hne (List.length_eq_zero_iff.mp (by simpa using hdl.symm))) (by omega) ?_, ?_⟩
    · intro i d P e1 e2
      have := (List.getElem?_eq_some_iff.mp e1).1
      exact (ih i (cs[i]'(by omega)) P (by simp) e2 hT (hds i _ d (by simp) e1)).1
    · refine answer_sub_union (.inl rfl) (.inl rfl) hdl ?_
      intro i d c e1 e2
      have := (List.getElem?_eq_some_iff.mp e2).1
      exact (ih i c (Ps[i]'(by omega)) e2 (by simp) hT (hds i c d e2 e1)).2
  | @ciu tc ws m cs T E k Ps hne hl hm hr ho hcs ih =>
    intro p' hd
    obtain ⟨ds, hdl, hds, rfl⟩ := hd.kids rfl
    refine ⟨.ciu (k := k) (by rintro rfl; exact hne (List.length_eq_zero_iff.mp (by simpa using hdl.symm))) (by omega) hm (by rw [hdl]; exact hr) ho ?_, ?_⟩
    · intro i d P e1 e2
      have := (List.getElem?_eq_some_iff.mp e1).1
      exact (ih i (cs[i]'(by omega)) P (by simp) e2 (hr.1 i (by omega)) (hds i _ d (by simp) e1)).1
    · refine answer_sub_union (.inr ⟨_, _, rfl⟩) (.inr ⟨_, _, rfl⟩) hdl ?_
      intro i d c e1 e2
      have := (List.getElem?_eq_some_iff.mp e2).1
      exact (ih i c (Ps[i]'(by omega)) e2 (by simp) (hr.1 i this) (hds i c d e2 e1)).2
  | hashRepart hn hd' _ ih =>
    intro p' hd
    obtain ⟨d, h1, rfl⟩ := hd.kid1 rfl
    exact ⟨.hashRepart hn hd' (ih hT h1).1, answer_sub_pass (fun _ _ => Iff.rfl) (fun _ _ => Iff.rfl) (ih hT h1).2⟩
  | otherRepart hn hd' _ ih =>
    intro p' hd
    obtain ⟨d, h1, rfl⟩ := hd.kid1 rfl
    exact ⟨.otherRepart hn hd' (ih hT h1).1, answer_sub_pass (fun _ _ => Iff.rfl) (fun _ _ => Iff.rfl) (ih hT h1).2⟩
  | coalesce _ ih =>
    intro p' hd
    obtain ⟨d, h1, rfl⟩ := hd.kid1 rfl
    exact ⟨.coalesce (ih hT h1).1, answer_sub_pass (fun _ _ => Iff.rfl) (fun _ _ => Iff.rfl) (ih hT h1).2⟩
  | spm _ ih =>
    intro p' hd
    obtain ⟨d, h1, rfl⟩ := hd.kid1 rfl
    exact ⟨.spm (ih hT h1).1, answer_sub_pass (fun _ _ => Iff.rfl) (fun _ _ => Iff.rfl) (ih hT h1).2⟩
  | fetch hk hg _ ih =>
    intro p' hd
    obtain ⟨d, h1, rfl⟩ := hd.kid1 (by rcases hk with rfl | ⟨le, rfl⟩ <;> rfl)
    refine ⟨.fetch hk hg (ih hT h1).1, answer_sub1 ?_ (ih hT h1).2⟩
    intro a b x e hx
    rcases hk with rfl | ⟨le, rfl⟩ <;> exact hg [a] [b] x ⟨e, True.intro⟩ hx
  | broadcast _ ih =>
    intro p' hd
    obtain ⟨d, h1, rfl⟩ := hd.kid1 rfl
    exact ⟨.broadcast (ih hT h1).1, answer_sub_pass (fun _ _ => Iff.rfl) (fun _ _ => Iff.rfl) (ih hT h1).2⟩
  | @shuffle tc h p N num c T P E hp hN hph hpos hc ih =>
    intro p' hd
    obtain ⟨d, g, h1, hg, rfl⟩ := hd.net_inv rfl
    obtain ⟨l, e⟩ := h1.input hg hpos.2 (fun x hx => ih hN hx)
    refine ⟨.shuffle hp hN (by simp) ⟨fun h' n o e => ?_, fun e => ?_⟩ l, answer_sub_pass (fun _ _ => Iff.rfl) (fun _ _ => Iff.rfl) e⟩
    · have := (under_children d (by rw [e]; rfl)).1
      rw [e, h1.kind] at this
      exact hpos.1 h' n o this.symm
    · obtain ⟨e1, e2⟩ := under_children d e
      rw [e2, h1.length]
      exact hpos.2 (by rw [← h1.kind, ← e1]; exact e)
  | @netCoalesce tc p N num c T P E hN hp hh hnet hc ih =>
    intro p' hd
    obtain ⟨d, g, h1, hg, rfl⟩ := hd.net_inv rfl
    obtain ⟨l, e⟩ := h1.input hg (by rw [hh]; rintro ⟨⟩) (fun x hx => ih hN hx)
    refine ⟨.netCoalesce hN hp ?_ (by simp) l, answer_sub_pass (fun _ _ => Iff.rfl) (fun _ _ => Iff.rfl) e⟩
    rw [under_plain (by rw [h1.kind]; exact hh)]
    rfl
  | @netBroadcast tc p N num c T E hN hph hc ih =>
    intro p' hd
    obtain ⟨d, g, h1, hg, rfl⟩ := hd.net_inv rfl
    obtain ⟨n, tc', x, rfl, _⟩ := hph
    obtain ⟨l, e⟩ := h1.input hg (fun _ => rfl) (fun x hx => ih hN hx)
    refine ⟨.netBroadcast hN ?_ l, answer_sub_pass (fun _ _ => Iff.rfl) (fun _ _ => Iff.rfl) e⟩
    obtain ⟨y, _, rfl⟩ := h1.kid1 rfl
    exact ⟨n, tc', fresh (.op g none) [y], rfl, by simp⟩
  | forget _ ih => exact fun hd => ⟨.forget (ih hT hd).1, (ih hT hd).2⟩
  | trivial _ ih => exact fun hd => ⟨.trivial (ih hT hd).1, (ih hT hd).2⟩
  | repFlip _ ih => exact fun hd => ⟨.repFlip (ih hT hd).1, (ih hT hd).2⟩
  | coarsen hE _ ih => exact fun hd => ⟨.coarsen hE (ih hT hd).1, RowEq.sub_mono hE (ih hT hd).2⟩

end DD.Tree
