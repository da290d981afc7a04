import Verif.Lemmas.Rewrite
import Verif.Lemmas.OrderPlan

namespace DD.Tree

open DD.Limit

variable {Row : Type}

open Classical in
/-- The operator that returns `r2` where it is given `r1`. -/
noncomputable def swapRows (o : Option (Row → Row → Bool)) (r1 r2 : Ran Row) (hp : ∀ ctx q, (r2.exec true ctx q).Perm (r1.exec true ctx q))
    (hs : ∀ ctx q, SortedBy o (r2.exec true ctx q)) : Op Row where
  exec := fun w ctx q as => if w = true ∧ as = [r1.exec true ctx q] then r2.exec true ctx q else as.headD []
  may := fun as x => x.Perm (as.headD [])
  ok := by
    intro w ctx q as
    split
    · rename_i h
      rw [h.2]
      exact hp ctx q
    · exact .refl _
  needs := fun _ => o
  order := o
  sorted := by
    intro w ctx q as h
    split
    · exact hs ctx q
    · have := h 0
      cases as <;> exact this

theorem swapRows_permutes {o : Option (Row → Row → Bool)} {r1 r2 : Ran Row} {hp hs} : Permutes (swapRows o r1 r2 hp hs) :=
  fun _ _ h => h

/-- What the operator makes of `r1`. -/
def swapped (r1 r2 : Ran Row) : Ran Row := ⟨r1.parts, fun w ctx q => if w then r2.exec w ctx q else r1.exec w ctx q⟩

theorem swapRows_stream {o : Option (Row → Row → Bool)} {r1 r2 : Ran Row} {hp hs} (w ctx q) :
    (swapRows o r1 r2 hp hs).stream w ctx q [r1.exec w ctx q] = (swapped r1 r2).exec w ctx q := by
  classical
  change (if w = true ∧ [r1.exec w ctx q] = [r1.exec true ctx q] then r2.exec true ctx q else r1.exec w ctx q) = _
  cases w with
  | true => simp [swapped]
  | false => simp [swapped]

/-- A boundary only sees what its input stage does on workers. -/
theorem emits_net {k : Kind Row} (hk : k.isNet = true) {x y : Ran Row × Ran Row} (hp : y.2.parts = x.2.parts)
    (he : ∀ ctx q, y.2.exec true ctx q = x.2.exec true ctx q) {w ctx q l} (h : Emits k [x] w ctx q l) : Emits k [y] w ctx q l := by
  cases k with
  | shuffle h' p n i =>
    refine Eq.mp (congrArg (Interleaved · l) ?_) (h : Interleaved _ l)
    simp only [List.getD_cons_zero]
    rw [hp]
    refine List.flatMap_congr fun pull _ => List.map_congr_left fun i _ => ?_
    rw [he]
  | netBroadcast p n i =>
    refine Eq.mp (congrArg (Interleaved · l) ?_) (h : Interleaved _ l)
    simp only [List.getD_cons_zero]
    rw [hp]
    refine List.map_congr_left fun pull _ => ?_
    rw [he]
  | netCoalesce p n i =>
    have h : l = netCoalesceExec p n x.2 ctx q := h
    change l = netCoalesceExec p n y.2 ctx q
    rw [h]
    unfold netCoalesceExec
    split
    · rfl
    · refine List.flatMap_congr fun pull _ => ?_
      rw [he]
  | _ => cases hk

/-- Any execution below a head extends to one of the head. -/
theorem runs_put {k : Kind Row} {tc} {cs : List (Plan Row)} {rs : List (Ran Row × Ran Row)} {a : Nat → Option (Row → Row → Bool)} (ha : Reads k a)
    (hrs : rs.length = cs.length ∧ ∀ (i : Nat) c r, cs[i]? = some c → rs[i]? = some r → Runs c r) :
    ∃ b, Runs (.node k tc cs) (b, if k.isHead then (rs.getD 0 (.none, .none)).1 else b) := by
  have := fun w ctx q => emits_exists ha rs w ctx q
  refine ⟨⟨(runKind k rs).parts, fun w ctx q => (this w ctx q).choose⟩, runs_node.mpr ⟨rs, hrs, rfl, fun w ctx q => (this w ctx q).choose_spec, rfl⟩⟩

/-- A plan that runs as `r1` can, with its rows in another order, run as `r2`. -/
theorem runs_under {c : Plan Row} {o r1} (hc : Runs c r1) (ho : Ordered false c o) (hone : c.kind.isHead = true → c.children.length = 1) {r2 : Ran Row}
    (hsame : SamePartitions r1.2 r2) (hs : ∀ ctx q, SortedBy o (r2.exec true ctx q)) :
    ∃ g b, Permutes g ∧ Ordered false (under g c) o ∧ ∃ y, Runs (under g c) (b, y) ∧ y.parts = r2.parts
      ∧ ∀ ctx q, y.exec true ctx q = r2.exec true ctx q := by
  have put : ∀ {x : Plan Row} {rx : Ran Row × Ran Row}, Runs x rx → rx.1 = r1.2 → Ordered false x o →
      Ordered false (fresh (.op (swapRows o r1.2 r2 hsame.2 hs) none) [x]) o
        ∧ Runs (fresh (.op (swapRows o r1.2 r2 hsame.2 hs) none) [x]) (swapped r1.2 r2, swapped r1.2 r2) := by
    intro x rx hx e hox
    refine ⟨.node (fun _ => o) (fun i c' h => ?_) ⟨fun i => .inr rfl, by rintro _ ⟨⟩⟩ (fun le h => h), runs_node.mpr ⟨[rx], ⟨rfl, ?_⟩, ?_, ?_, rfl⟩⟩
    · match i with
      | 0 => cases h; exact hox
      | i + 1 => simp at h
    · intro i c' r h1 h2
      match i with
      | 0 => cases h1; cases h2; exact hx
      | i + 1 => simp at h1
    · change r1.2.parts = rx.1.parts
      rw [e]
    · intro w ctx q
      change (swapped r1.2 r2).exec w ctx q = (swapRows o r1.2 r2 hsame.2 hs).stream w ctx q [rx.1.exec w ctx q]
      rw [e, swapRows_stream]
  have done : (swapped r1.2 r2).parts = r2.parts ∧ ∀ ctx q, (swapped r1.2 r2).exec true ctx q = r2.exec true ctx q :=
    ⟨hsame.1.symm, fun _ _ => rfl⟩
  have plain : c.kind.isHead = false → r1.1 = r1.2 := by
    intro hk
    cases c with
    | node k tc cs =>
      obtain ⟨rs, _, _, _, e⟩ := runs_node.mp hc
      rw [show k.isHead = false from hk] at e
      exact e.symm
  cases hk : c.kind.isHead with
  | false =>
    obtain ⟨h1, h2⟩ := put hc (plain hk) ho
    rw [← under_plain (g := swapRows o r1.2 r2 hsame.2 hs) hk] at h1 h2
    exact ⟨_, _, swapRows_permutes, h1, _, h2, done⟩
  | true =>
    cases c with
    | node k tc cs =>
      change k.isHead = true at hk
      obtain ⟨rs, ⟨hl, hrs⟩, _, _, e⟩ := runs_node.mp hc
      rw [if_pos hk] at e
      obtain ⟨a, h1, h2, _⟩ := ho.inv
      have hn : o = none := by
        cases o with
        | none => rfl
        | some le => exact absurd (ho.not_head.symm.trans hk) (by simp)
      subst hn
      cases cs with
      | nil =>
        exact absurd (hone hk) (by simp [Plan.children])
      | cons x cs =>
        cases rs with
        | nil => simp at hl
        | cons rx rs =>
          obtain ⟨p1, p2⟩ := put (hrs 0 x rx rfl rfl) e.symm (h1 0 x rfl).weaken
          have hr2 : Reads k fun i => if i = 0 then none else a i := by
            cases k <;> first | (cases hk; done) | exact h2
          obtain ⟨b, hb⟩ := runs_put (tc := tc) (cs := fresh (.op (swapRows none r1.2 r2 hsame.2 hs) none) [x] :: cs)
            (rs := (swapped r1.2 r2, swapped r1.2 r2) :: rs) hr2 ⟨by simpa using hl, fun i c r e1 e2 => by
              cases i with
              | zero => cases e1; cases e2; exact p2
              | succ i => exact hrs (i + 1) c r (by simpa using e1) (by simpa using e2)⟩
          rw [if_pos hk] at hb
          refine ⟨swapRows none r1.2 r2 hsame.2 hs, b, swapRows_permutes, ?_, swapped r1.2 r2, ?_, done⟩
          · simp only [under, hk, if_true]
            refine .node (fun i => if i = 0 then none else a i) (fun i c e1 => ?_) hr2 (by rintro _ ⟨⟩)
            cases i with
            | zero => cases e1; exact p1
            | succ i => exact h1 (i + 1) c (by simpa using e1)
          · simp only [under, hk, if_true]
            exact hb

/-! ### Legal plans -/

theorem OneInput.unstrip {c : Plan Row} (h : OneInput (strip c)) (hone : c.kind.isHead = true → c.children.length = 1) : OneInput c := by
  cases c with
  | node k tc cs =>
    cases hk : k.isHead with
    | false =>
      cases cs with
      | nil => exact h
      | cons x cs => simpa only [strip, hk, Bool.false_eq_true, if_false] using h
    | true =>
      have := hone hk
      match cs, this with
      | [x], _ =>
        simp only [strip, hk, if_true] at h
        exact .inner (isHead_plain hk) (by simpa using h)

theorem Legal.oneInput {T : Nat} {p : Plan Row} {I : Info Row} (h : Legal false T p I) : OneInput p := by
  induction h with
  | leaf => exact .inner rfl (by simp)
  | distLeaf => exact .inner rfl (by simp)
  | opLocal _ _ _ _ ih => exact .inner rfl (by simpa using ih)
  | @opKeyed tc g red cs T P hs Es d' E' hk hred hd' hne hl hl' hcs ih =>
    refine .inner rfl fun c hc => ?_
    obtain ⟨i, hi, rfl⟩ := List.getElem_of_mem hc
    exact ih i _ (hs[i]'(by omega)) (Es[i]'(by omega)) (by simp) (by simp) (by simp)
  | @opSingle tc g red cs Es E' hg hred hne hl hcs ih =>
    refine .inner rfl fun c hc => ?_
    obtain ⟨i, hi, rfl⟩ := List.getElem_of_mem hc
    exact ih i _ (Es[i]'(by omega)) (by simp) (by simp)
  | joinSafe _ _ _ _ _ ihb ihp => exact .inner rfl (by simp; exact ⟨ihb, ihp⟩)
  | joinSingle _ _ _ _ ihb ihp => exact .inner rfl (by simp; exact ⟨ihb, ihp⟩)
  | joinPart _ _ _ _ _ ihb ihp => exact .inner rfl (by simp; exact ⟨ihb, ihp⟩)
  | @union tc cs T E Ps hne hl hcs ih =>
    refine .inner rfl fun c hc => ?_
    obtain ⟨i, hi, rfl⟩ := List.getElem_of_mem hc
    exact ih i _ (Ps[i]'(by omega)) (by simp) (by simp)
  | @ciu tc ws m cs T E k Ps hne hl hm hr ho hcs ih =>
    refine .inner rfl fun c hc => ?_
    obtain ⟨i, hi, rfl⟩ := List.getElem_of_mem hc
    exact ih i _ (Ps[i]'(by omega)) (by simp) (by simp)
  | hashRepart _ _ _ ih => exact .inner rfl (by simpa using ih)
  | otherRepart _ _ _ ih => exact .inner rfl (by simpa using ih)
  | coalesce _ ih => exact .inner rfl (by simpa using ih)
  | spm _ ih => exact .inner rfl (by simpa using ih)
  | fetch hk _ _ ih => exact .inner (by rcases hk with rfl | ⟨le, rfl⟩ <;> rfl) (by simpa using ih)
  | broadcast _ ih => exact .inner rfl (by simpa using ih)
  | shuffle _ _ _ hpos _ ih => exact .net rfl hpos.2 (ih.unstrip hpos.2)
  | netCoalesce _ _ hh _ _ ih =>
    have : ∀ {b : Prop}, _ = true → b := fun h => absurd (hh.symm.trans h) (by simp)
    exact .net rfl this (ih.unstrip this)
  | netBroadcast _ hph _ ih =>
    obtain ⟨n, tc', x, rfl, _⟩ := hph
    exact .net rfl (fun _ => rfl) (ih.unstrip fun _ => rfl)
  | forget _ ih => exact ih
  | trivial _ ih => exact ih
  | repFlip _ ih => exact ih
  | coarsen _ _ ih => exact ih

/-! ### Rewritten plans run like decorated plans -/

theorem Ordered.bare_sorted {c : Plan Row} {o} (h : Ordered false c o) {r} (hr : Runs c r) (w ctx q) : SortedBy o (r.2.exec w ctx q) := by
  cases o with
  | none => exact True.intro
  | some le =>
    have hk := h.not_head
    have := h.sorted hr w ctx q
    cases c with
    | node k tc cs =>
      obtain ⟨rs, _, _, _, e⟩ := runs_node.mp hr
      rw [show k.isHead = false from hk] at e
      rw [show r.2 = r.1 from e]
      exact this

theorem stageNumsAll_mem {cs : List (Plan Row)} (h : (stageNumsAll cs).Nodup) : ∀ c ∈ cs, (stageNums c).Nodup := by
  induction cs with
  | nil => simp
  | cons c cs ih =>
    rw [stageNumsAll, List.nodup_append] at h
    intro d hd
    rcases List.mem_cons.mp hd with rfl | hd
    · exact h.1
    · exact ih h.2.1 d hd

theorem rewriteStages_runs {hs : HandlerChain (RewriteHandler Row)} (hh : ∀ h ∈ hs.custom ++ hs.builtin, KeepsStages h) {p : Plan Row}
    (hp : OneInput p) : (stageNums p).Nodup → ∀ {q}, rewriteStages hs p = .ok q → ∀ {o}, Ordered false p o →
      Ordered false q o ∧ ∀ r, Runs q r → ∃ p', Deco p p' ∧ Ordered false p' o ∧ Runs p' r := by
  induction hp with
  | @net k tc c hk hone hc ih =>
    intro hnd q hq o ho
    have hnd' : (stageNums c).Nodup := by
      rw [stageNums, List.nodup_append] at hnd
      exact stageNumsAll_mem hnd.1 c (by simp)
    rw [rewriteStages] at hq
    obtain ⟨cs', h1, hq⟩ := bind_ok hq
    cases hq
    obtain ⟨hl, hi⟩ := rewriteStagesAll_inv h1
    match cs', hl with
    | [c2], _ =>
      obtain ⟨c1, h2, h3⟩ := hi 0 c c2 rfl rfl
      rw [hk, if_pos rfl] at h3
      obtain ⟨f, s, s', hm, e1, e2⟩ := rewriteStage_replaces hh hc hnd' h2 h3
      obtain ⟨a, a1, a2, a3⟩ := ho.inv
      obtain ⟨b1, b2⟩ := ih hnd' h2 (a1 0 c rfl)
      have b3 : Ordered false c2 (a 0) := by
        rw [e2]
        exact hm.order f _ (e1 ▸ b1)
      refine ⟨.node a (fun i x e => ?_) a2 a3, fun r hr => ?_⟩
      · match i with
        | 0 => cases e; exact b3
        | i + 1 => simp at e
      · obtain ⟨rs, ⟨hrl, hrs⟩, d1, d2, d3⟩ := runs_node.mp hr
        match rs, hrl with
        | [r2], _ =>
          have hr2 : Runs c2 r2 := hrs 0 c2 r2 rfl rfl
          obtain ⟨r1, hr1, hsame⟩ := hm.rows f r2 (e2 ▸ hr2)
          obtain ⟨d, hd, hdo, hdr⟩ := b2 r1 (e1 ▸ hr1)
          obtain ⟨g, b, hg, hgo, y, hy, hyp, hye⟩ := runs_under hdr hdo (by rw [hd.kind, hd.length]; exact hone) hsame
            fun ctx q => b3.bare_sorted hr2 true ctx q
          refine ⟨.node k tc [under g d], .net hk hd hg, .node a (fun i x e => ?_) a2 a3, runs_node.mpr ⟨[(b, y)], ⟨rfl, ?_⟩, ?_, ?_, ?_⟩⟩
          · match i with
            | 0 => cases e; exact hgo
            | i + 1 => simp at e
          · intro i x r e1 e2
            match i with
            | 0 => cases e1; cases e2; exact hy
            | i + 1 => simp at e1
          · rw [d1]
            cases k with
            | shuffle => rfl
            | netCoalesce => rfl
            | netBroadcast => rfl
            | _ => cases hk
          · exact fun w ctx q => emits_net hk hyp hye (d2 w ctx q)
          · have : k.isHead = false := by cases k <;> first | rfl | cases hk
            rw [this] at d3 ⊢
            exact d3
  | @inner k tc cs hk hall ih =>
    intro hnd q hq o ho
    have hnd' : ∀ c ∈ cs, (stageNums c).Nodup := by
      rw [stageNums, List.nodup_append] at hnd
      exact stageNumsAll_mem hnd.1
    rw [rewriteStages] at hq
    obtain ⟨cs', h1, hq⟩ := bind_ok hq
    cases hq
    obtain ⟨hl, hi⟩ := rewriteStagesAll_inv h1
    rw [hk] at hi
    obtain ⟨a, a1, a2, a3⟩ := ho.inv
    have key : ∀ (i : Nat) c c', cs[i]? = some c → cs'[i]? = some c' →
        Ordered false c' (a i) ∧ ∀ r, Runs c' r → ∃ d, Deco c d ∧ Ordered false d (a i) ∧ Runs d r := by
      intro i c c' e1 e2
      obtain ⟨c1, e3, e4⟩ := hi i c c' e1 e2
      simp only [Bool.false_eq_true, if_false] at e4
      subst e4
      exact ih c (List.mem_of_getElem? e1) (hnd' c (List.mem_of_getElem? e1)) e3 (a1 i c e1)
    refine ⟨.node a (fun i c' e => ?_) a2 a3, fun r hr => ?_⟩
    · have := (List.getElem?_eq_some_iff.mp e).1
      exact (key i (cs[i]'(by omega)) c' (by simp) e).1
    · obtain ⟨rs, ⟨hrl, hrs⟩, d1, d2, d3⟩ := runs_node.mp hr
      have get : ∀ (i : Nat) c, cs[i]? = some c → ∃ d, Deco c d ∧ Ordered false d (a i) ∧ ∀ r, rs[i]? = some r → Runs d r := by
        intro i c e
        have hi' := (List.getElem?_eq_some_iff.mp e).1
        have hi2 : i < rs.length := by omega
        obtain ⟨d, x1, x2, x3⟩ := (key i c (cs'[i]'(by omega)) e (by simp)).2 rs[i] (hrs i _ _ (by simp) (by simp))
        exact ⟨d, x1, x2, fun r e => by rw [List.getElem?_eq_getElem hi2] at e; cases e; exact x3⟩
      obtain ⟨ds, hdl, hds⟩ := exists_list (P := fun i c d => Deco c d ∧ Ordered false d (a i) ∧ ∀ r, rs[i]? = some r → Runs d r) cs get
      have get' : ∀ (i : Nat) d, ds[i]? = some d → ∃ c, cs[i]? = some c := by
        intro i d e
        have := (List.getElem?_eq_some_iff.mp e).1
        exact ⟨cs[i]'(by omega), by simp⟩
      refine ⟨.node k tc ds, .inner hk hdl fun i c d e1 e2 => (hds i c d e1 e2).1, .node a (fun i d e => ?_) a2 a3,
        runs_node.mpr ⟨rs, ⟨by omega, fun i d r e1 e2 => ?_⟩, d1, d2, d3⟩⟩
      · obtain ⟨c, e'⟩ := get' i d e
        exact (hds i c d e' e).2.1
      · obtain ⟨c, e'⟩ := get' i d e1
        exact (hds i c d e' e1).2.2 r e2

end DD.Tree
