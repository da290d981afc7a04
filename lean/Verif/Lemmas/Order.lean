/-
Executions of plans whose operators get their inputs in order.
-/
import Verif.Spec.Order
import Verif.Lemmas.Limit
import Verif.Lemmas.PlanExec

namespace DD.Tree

open DD.Limit

variable {Row : Type} {one : Bool}

/-! ### Unfolding -/

theorem SortedBy.nil (o : Option (Row → Row → Bool)) : SortedBy o [] := by
  cases o with
  | none => exact True.intro
  | some le => exact List.Pairwise.nil

theorem Ordered.inv {k : Kind Row} {tc cs o} (h : Ordered one (.node k tc cs) o) :
    ∃ a : Nat → Option (Row → Row → Bool), (∀ (i : Nat) c, cs[i]? = some c → Ordered one c (a i)) ∧ Reads k a
      ∧ ∀ le, o = some le → Promises one k a le := by
  cases h with
  | node a h1 h2 h3 => exact ⟨a, h1, h2, h3⟩

theorem Ordered.weaken {p : Plan Row} {o} (h : Ordered one p o) : Ordered one p none := by
  cases h with
  | node a h1 h2 h3 => exact .node a h1 h2 (by rintro _ ⟨⟩)

/-- What a distributed plan promises without network boundaries it promises on a single node. -/
theorem Ordered.single {p : Plan Row} {o} (h : Ordered false p o) (hn : hasNet p = false) : Ordered true p o := by
  induction h with
  | @node k tc cs o a h1 h2 h3 ih =>
    rw [hasNet, Bool.or_eq_false_iff] at hn
    have hany : ∀ cs : List (Plan Row), hasNetAny cs = false → ∀ c ∈ cs, hasNet c = false := by
      intro cs
      induction cs with
      | nil => simp
      | cons c cs ih =>
        intro h
        rw [hasNetAny, Bool.or_eq_false_iff] at h
        intro x hx
        rcases List.mem_cons.mp hx with rfl | hx
        · exact h.1
        · exact ih h.2 x hx
    refine .node a (fun i c e => ih i c e (hany cs hn.2 c (List.mem_of_getElem? e))) h2 fun le e => ?_
    have := h3 le e
    cases k
    case spm f le' => cases f <;> exact this
    all_goals first | (exact this) | (cases hn.1; done) | (cases this.1; done)

theorem runsAll_iff (cs : List (Plan Row)) : ∀ rs, RunsAll cs rs ↔
    rs.length = cs.length ∧ ∀ (i : Nat) c r, cs[i]? = some c → rs[i]? = some r → Runs c r := by
  induction cs with
  | nil =>
    intro rs
    simp only [RunsAll]
    exact ⟨fun h => by subst h; simp, fun h => by simpa using h.1⟩
  | cons c cs ih =>
    intro rs
    simp only [RunsAll]
    constructor
    · rintro ⟨d, rest, rfl, h1, h2⟩
      obtain ⟨hl, h⟩ := (ih rest).mp h2
      refine ⟨by simp [hl], ?_⟩
      intro i c' d' e1 e2
      match i with
      | 0 => simp at e1 e2; subst e1 e2; exact h1
      | i + 1 => simp at e1 e2; exact h i c' d' e1 e2
    · rintro ⟨hl, h⟩
      match rs, hl with
      | d :: rest, hl =>
        refine ⟨d, rest, rfl, h 0 c d rfl rfl, (ih rest).mpr ⟨by simpa using hl, ?_⟩⟩
        intro i c' d' e1 e2
        exact h (i + 1) c' d' (by simpa using e1) (by simpa using e2)

theorem runs_node {k : Kind Row} {tc cs r} : Runs (.node k tc cs) r ↔ ∃ rs,
    (rs.length = cs.length ∧ ∀ (i : Nat) c r, cs[i]? = some c → rs[i]? = some r → Runs c r)
    ∧ r.1.parts = (runKind k rs).parts ∧ (∀ w ctx q, Emits k rs w ctx q (r.1.exec w ctx q))
    ∧ r.2 = if k.isHead then (rs.getD 0 (.none, .none)).1 else r.1 := by
  simp only [Runs, runsAll_iff]

/-! ### Promised orders are kept -/

/-- Every stream of the children is in the order `a` says. -/
def KidsSorted (rs : List (Ran Row × Ran Row)) (a : Nat → Option (Row → Row → Bool)) : Prop :=
  ∀ i w ctx q, SortedBy (a i) ((rs.getD i (.none, .none)).1.exec w ctx q)

theorem KidsSorted.inOrder {rs : List (Ran Row × Ran Row)} {a needs : Nat → Option (Row → Row → Bool)} (h : KidsSorted rs a)
    (hn : ∀ i, needs i = none ∨ a i = needs i) (w ctx q) : InOrder needs (rs.map fun c => c.1.exec w ctx q) := by
  intro i
  rcases hn i with e | e
  · rw [e]; exact True.intro
  · rw [← e]
    have := h i w ctx q
    rw [List.getD_eq_getElem?_getD] at this ⊢
    rw [List.getElem?_map]
    cases hi : rs[i]? with
    | none => exact SortedBy.nil _
    | some r => rw [hi] at this; exact this

theorem inOrder_one {needs : Nat → Option (Row → Row → Bool)} {l : List Row} (h : SortedBy (needs 0) l) :
    InOrder needs [l] := by
  intro i
  match i with
  | 0 => exact h
  | i + 1 => exact SortedBy.nil _

theorem Probed.sorted {s : JoinSpec Row} {build ps l : List Row} {le0 le : Row → Row → Bool} (h : Probed s build ps l)
    (hk : ProbeKeeps s le0 le) (hs : SortedBy (some le0) ps) : SortedBy (some le) l := by
  obtain ⟨ms, hl, hm, rfl⟩ := h
  show List.Pairwise _ _
  rw [List.pairwise_flatten]
  have get : ∀ i (hi : i < ms.length), ms[i].Perm (joinRows s build [ps[i]'(by omega)]) := fun i hi =>
    hm i _ _ (List.getElem?_eq_getElem (by omega)) (List.getElem?_eq_getElem hi)
  refine ⟨?_, ?_⟩
  · intro m hm'
    obtain ⟨i, hi, rfl⟩ := List.mem_iff_getElem.mp hm'
    have hp := get i hi
    rw [List.pairwise_iff_getElem]
    intro j j' hj hj' _
    exact hk.2 build _ _ (hk.1 _) _ (hp.mem_iff.mp (List.getElem_mem hj)) _ (hp.mem_iff.mp (List.getElem_mem hj'))
  · rw [List.pairwise_iff_getElem]
    intro i j hi hj hij x hx y hy
    have hs' := List.pairwise_iff_getElem.mp hs i j (by omega) (by omega) hij
    exact hk.2 build _ _ hs' _ ((get i hi).mem_iff.mp hx) _ ((get j hj).mem_iff.mp hy)

theorem mixed_sorted {le : Row → Row → Bool} (ho : TotalOrder le) {ls : List (List Row)} {l : List Row}
    (h : Mixed (some le) ls l) (hs : ∀ x ∈ ls, SortedBy (some le) x) : SortedBy (some le) l :=
  Merged.sorted ho h hs

theorem hashPart_sorted {le : Row → Row → Bool} {h n b} {l : List Row} (hs : SortedBy (some le) l) :
    SortedBy (some le) (hashPart h n b l) := by
  show List.Pairwise _ (l.filter _)
  exact List.Pairwise.filter _ hs

theorem unionExec_sorted {o : Option (Row → Row → Bool)} (w : Bool) (ctx : TaskCtx) : ∀ (cs : List (Ran Row)) (q : Nat),
    (∀ c ∈ cs, ∀ q, SortedBy o (c.exec w ctx q)) → SortedBy o (unionExec w ctx cs q)
  | [], q, _ => SortedBy.nil _
  | c :: cs, q, h => by
    rw [unionExec]
    split
    · exact h c (List.mem_cons_self ..) q
    · exact unionExec_sorted w ctx cs _ fun c' hc' => h c' (List.mem_cons_of_mem _ hc')

/-- A node whose inputs are in order returns its rows in the order it promises. `bare`: below a coalesce the plan without
its head is executed. -/
theorem emits_sorted {k : Kind Row} {rs : List (Ran Row × Ran Row)} {a : Nat → Option (Row → Row → Bool)}
    (hs : KidsSorted rs a) (hb : one = false → ∀ w ctx q, SortedBy (a 0) ((rs.getD 0 (.none, .none)).2.exec w ctx q))
    (hr : Reads k a) {le} (hp : Promises one k a le) {w ctx q l} (h : Emits k rs w ctx q l) : SortedBy (some le) l := by
  cases k with
  | leaf ps =>
    change l = ps.getD q [] at h
    subst h
    rw [List.getD_eq_getElem?_getD]
    cases hq : ps[q]? with
    | none => exact SortedBy.nil _
    | some p => exact hp p (List.mem_of_getElem? hq)
  | distLeaf o vs =>
    change l = (if w || ctx.count != 1 then (vs.getD ctx.index []).getD q [] else o.getD q []) at h
    subst h
    have get : ∀ ps : List (List Row), (∀ p ∈ ps, SortedBy (some le) p) → SortedBy (some le) (ps.getD q []) := by
      intro ps hps
      rw [List.getD_eq_getElem?_getD]
      cases hq : ps[q]? with
      | none => exact SortedBy.nil _
      | some p => exact hps p (List.mem_of_getElem? hq)
    split
    · apply get
      rw [List.getD_eq_getElem?_getD]
      cases hv : vs[ctx.index]? with
      | none => simp
      | some v => exact hp.2 v (List.mem_of_getElem? hv)
    · exact get _ hp.1
  | op g red =>
    change l = g.stream w ctx q (rs.map fun c => c.1.exec w ctx q) at h
    subst h
    change g.order = some le at hp
    have hi := hs.inOrder hr.1 w ctx q
    rw [g.stream_ok w ctx q _ hi, ← hp]
    exact g.sorted w ctx q _ hi
  | join m s =>
    obtain ⟨h1, le0, h2, h3⟩ := hp
    have := hs 1 w ctx q
    rw [h2] at this
    exact (h.2 h1).sorted h3 this
  | union =>
    change l = unionExec w ctx (rs.map (·.1)) q at h
    subst h
    apply unionExec_sorted
    intro c hc q'
    obtain ⟨r, hr', rfl⟩ := List.mem_map.mp hc
    obtain ⟨i, hi⟩ := List.mem_iff_getElem?.mp hr'
    have := hs i w ctx q'
    rw [show a i = some le from hp i, List.getD_eq_getElem?_getD, hi] at this
    exact this
  | ciu ws m =>
    change l = ciuExec w (rs.map (·.1)) (m.getD ctx.index []) q at h
    subst h
    unfold ciuExec
    split
    · rename_i r _
      have := hs r.child w r.ctx r.partition
      rw [show a r.child = some le from hp r.child] at this
      rw [show (Ran.none : Ran Row) = (Ran.none, Ran.none).1 from rfl, getD_map rs (·.1) r.child (.none, .none)]
      exact this
    · exact SortedBy.nil _
  | hashRepart h' n keep =>
    obtain ⟨_, rfl, h2⟩ := hp
    have h1 := hr le rfl
    refine mixed_sorted h1 h ?_
    intro x hx
    obtain ⟨i, _, rfl⟩ := List.mem_map.mp hx
    have := hs 0 w ctx i
    rw [h2] at this
    exact hashPart_sorted this
  | otherRepart n deal => exact hp.elim
  | coalesce f =>
    obtain ⟨g, rfl, hg⟩ := hp
    change (if q = 0 then _ else _) at h
    split at h
    · obtain ⟨m, _, rfl⟩ := h
      have hi : InOrder g.needs [m] := inOrder_one (by rw [hr g rfl]; exact True.intro)
      show SortedBy _ (g.stream w ctx 0 [m])
      rw [g.stream_ok _ _ _ _ hi, ← hg]
      exact g.sorted _ _ _ _ hi
    · subst h; exact SortedBy.nil _
  | spm f le' =>
    change (if q = 0 then _ else _) at h
    split at h
    · obtain ⟨m, hm, rfl⟩ := h
      have hsm : SortedBy (some le') m := by
        refine mixed_sorted hr.1 hm ?_
        intro x hx
        obtain ⟨i, _, rfl⟩ := List.mem_map.mp hx
        have := hs 0 w ctx i
        rwa [hr.2.1] at this
      cases f with
      | none =>
        change le' = le at hp
        subst hp
        exact hsm
      | some g =>
        change g.order = some le at hp
        have hi : InOrder g.needs [m] := inOrder_one (by
          rcases hr.2.2 g rfl with e | e <;> rw [e]
          · exact True.intro
          · exact hsm)
        show SortedBy _ (g.stream w ctx 0 [m])
        rw [g.stream_ok _ _ _ _ hi, ← hp]
        exact g.sorted _ _ _ _ hi
    · subst h; exact SortedBy.nil _
  | broadcast n => exact hp.elim
  | shuffle => exact hp.elim
  | netCoalesce p n i =>
    change l = netCoalesceExec p n _ ctx q at h
    subst h
    unfold netCoalesceExec
    cases he : (CoalesceExec.mk p n).execute ctx q with
    | error => exact SortedBy.nil _
    | ok pulls =>
      have := hb hp.1
      rcases execute_reads he with rfl | ⟨r, rfl, _⟩
      · exact SortedBy.nil _
      · have := this true ⟨r.task, n⟩ r.partition
        rw [hp.2] at this
        simpa using this
  | netBroadcast => exact hp.elim

theorem getD_kids {rs : List (Ran Row × Ran Row)} {cs : List (Plan Row)} (hl : rs.length = cs.length) (i : Nat) :
    (cs[i]? = none ∧ rs.getD i (.none, .none) = (.none, .none)) ∨ ∃ c r, cs[i]? = some c ∧ rs[i]? = some r ∧ rs.getD i (.none, .none) = r := by
  by_cases hi : i < cs.length
  · exact .inr ⟨cs[i], rs[i]'(by omega), by simp, by simp, by simp [hl, hi]⟩
  · exact .inl ⟨by simp [hi], by simp [hl, hi]⟩

/-- What a plan is executed as without its head is in order too, if the order is not one of the head. -/
theorem Runs.bare {p : Plan Row} {r} (h : Runs p r) (hk : p.kind.isHead = false) : r.2 = r.1 := by
  cases p with
  | node k tc cs =>
    obtain ⟨rs, _, _, _, e⟩ := runs_node.mp h
    rw [e, if_neg]
    change k.isHead = false at hk
    simp [hk]

theorem Ordered.not_head {p : Plan Row} {le} (h : Ordered false p (some le)) : p.kind.isHead = false := by
  cases p with
  | node k tc cs =>
    obtain ⟨a, _, _, h3⟩ := h.inv
    have := h3 le rfl
    cases k <;> first | rfl | (exact this.elim) | (obtain ⟨h, _⟩ := this; cases h)

theorem Ordered.sorted {p : Plan Row} {o} (h : Ordered one p o) : ∀ {r}, Runs p r →
    ∀ w ctx q, SortedBy o (r.1.exec w ctx q) := by
  induction h with
  | @node k tc cs o a hc hr hp ih =>
    intro r hrun w ctx q
    obtain ⟨rs, ⟨hl, hrs⟩, hparts, hem, hbare⟩ := runs_node.mp hrun
    cases o with
    | none => exact True.intro
    | some le =>
      refine emits_sorted (a := a) ?_ ?_ hr (hp le rfl) (hem w ctx q)
      · intro i w ctx q
        rcases getD_kids hl i with ⟨_, e⟩ | ⟨c, r', e1, e2, e3⟩
        · rw [e]; exact SortedBy.nil _
        · rw [e3]; exact ih i c e1 (hrs i c r' e1 e2) w ctx q
      · rintro rfl w ctx q
        rcases getD_kids hl 0 with ⟨_, e⟩ | ⟨c, r', e1, e2, e3⟩
        · rw [e]; exact SortedBy.nil _
        · rw [e3]
          cases ha : a 0 with
          | none => exact True.intro
          | some le' =>
            have hc' := hc 0 c e1
            rw [ha] at hc'
            rw [Runs.bare (hrs 0 c r' e1 e2) hc'.not_head, ← ha]
            exact ih 0 c e1 (hrs 0 c r' e1 e2) w ctx q

/-- The children of a node that runs, with the orders their streams are in. -/
theorem Ordered.kids {k : Kind Row} {tc cs o r} (h : Ordered one (.node k tc cs) o) (hr : Runs (.node k tc cs) r) :
    ∃ a rs, (rs.length = cs.length ∧ ∀ (i : Nat) c r, cs[i]? = some c → rs[i]? = some r → Runs c r)
      ∧ (∀ (i : Nat) c, cs[i]? = some c → Ordered one c (a i)) ∧ KidsSorted rs a ∧ Reads k a
      ∧ r.1.parts = (runKind k rs).parts ∧ (∀ w ctx q, Emits k rs w ctx q (r.1.exec w ctx q))
      ∧ r.2 = if k.isHead then (rs.getD 0 (.none, .none)).1 else r.1 := by
  obtain ⟨a, h1, h2, h3⟩ := h.inv
  obtain ⟨rs, ⟨hl, hrs⟩, e1, e2, e3⟩ := runs_node.mp hr
  refine ⟨a, rs, ⟨hl, hrs⟩, h1, ?_, h2, e1, e2, e3⟩
  intro i w ctx q
  rcases getD_kids hl i with ⟨_, e⟩ | ⟨c, r', e1, e2, e3⟩
  · rw [e]; exact SortedBy.nil _
  · rw [e3]; exact (h1 i c e1).sorted (hrs i c r' e1 e2) w ctx q

/-! ### Executions produce answers -/

/-- No coalesce or merge with a fetch. -/
def Kind.noFetch : Kind Row → Prop
  | .coalesce f | .spm f _ => f = none
  | _ => True

/-- If its inputs are in the order it relies on, a node returns the rows `run` says it returns, in some order. -/
theorem emits_perm {k : Kind Row} {rs : List (Ran Row × Ran Row)} {a : Nat → Option (Row → Row → Bool)}
    (hs : KidsSorted rs a) (hr : Reads k a) (hf : k.noFetch) {w ctx q l} (h : Emits k rs w ctx q l) :
    l.Perm ((runKind k rs).exec w ctx q) := by
  have hmix : ∀ {keep : Option (Row → Row → Bool)} {ls : List (List Row)} {l}, Mixed keep ls l → l.Perm ls.flatten := by
    intro keep ls l h
    cases keep with
    | none => exact Merged.perm h
    | some le => exact Merged.perm h
  cases k with
  | op g red =>
    change l = g.stream w ctx q (rs.map fun c => c.1.exec w ctx q) at h
    subst h
    rw [g.stream_ok w ctx q _ (hs.inOrder hr.1 w ctx q)]
    exact .refl _
  | join m s => exact h.1
  | hashRepart h' n keep =>
    refine (hmix h).trans (.of_eq ?_)
    show _ = hashPart h' n q (Ran.rows _ w ctx)
    rw [Ran.rows, hashPart_flatMap, List.flatMap_def]
  | otherRepart n deal => exact h
  | coalesce f =>
    change f = none at hf
    subst hf
    change (if q = 0 then _ else _) at h
    show l.Perm (if q = 0 then _ else _)
    split at h
    · rename_i e
      rw [if_pos e]
      obtain ⟨m, h1, rfl⟩ := h
      refine (Merged.perm h1).trans (.of_eq ?_)
      show _ = Ran.rows _ w ctx
      rw [Ran.rows, List.flatMap_def]
    · rename_i e
      rw [if_neg e, h]
  | spm f le =>
    change f = none at hf
    subst hf
    change (if q = 0 then _ else _) at h
    show l.Perm (if q = 0 then _ else _)
    split at h
    · rename_i e
      rw [if_pos e]
      obtain ⟨m, h1, rfl⟩ := h
      refine (hmix h1).trans (.of_eq ?_)
      show _ = Ran.rows _ w ctx
      rw [Ran.rows, List.flatMap_def]
    · rename_i e
      rw [if_neg e, h]
  | shuffle h' p n i =>
    refine (Merged.perm h).trans (.of_eq ?_)
    show _ = shuffleExec h' p n _ ctx q
    unfold shuffleExec
    generalize (FanExec.mk p n).execute ctx q = pulls
    induction pulls with
    | nil => rfl
    | cons x pulls ih =>
      simp only [List.flatMap_cons, List.flatten_append, ih]
      congr 1
      rw [Ran.rows, hashPart_flatMap, List.flatMap_def]
  | netBroadcast p n i =>
    refine (Merged.perm h).trans (.of_eq ?_)
    show _ = netBroadcastExec p n _ ctx q
    unfold netBroadcastExec
    rw [List.flatMap_def]
  | leaf => exact .of_eq h
  | distLeaf => exact .of_eq h
  | union => exact .of_eq h
  | ciu => exact .of_eq h
  | broadcast => exact .of_eq h
  | netCoalesce => exact .of_eq h

/-- `Good` does not look at the order of rows. -/
theorem Good.congr {r r' : Ran Row} {w T I d} (h : Good r' w T I d) (hp : r.parts = r'.parts)
    (he : ∀ ctx q, (r.exec w ctx q).Perm (r'.exec w ctx q)) : Good r w T I d := by
  have hrows : ∀ ctx, (r.rows w ctx).Perm (r'.rows w ctx) := by
    intro ctx
    unfold Ran.rows
    rw [hp]
    exact List.Perm.flatMap_left _ fun q _ => he ctx q
  refine ⟨hp.trans h.parts, fun hr => ?_, fun hr i hi => ?_, ?_⟩
  · exact I.eqv.trans (I.eqv.ofPerm (List.Perm.flatMap_left _ fun i _ => hrows _)) (h.share hr)
  · exact I.eqv.trans (I.eqv.ofPerm (hrows _)) (h.copy hr i hi)
  · intro hh e i hi q hq x hx
    exact h.dist hh e i hi q hq x ((he _ _).mem_iff.mp hx)

/-- Any execution is that of some plan. -/
def embed (r : Ran Row) : Plan Row :=
  .node (.op { exec := fun w ctx q _ => r.exec w ctx q, may := fun _ _ => True, ok := fun _ _ _ _ => True.intro } none) (.desired 1)
    [.node (.leaf (List.replicate r.parts [])) (.desired 1) []]

theorem run_embed (r : Ran Row) : run (embed r) = r := by
  cases r with
  | mk parts exec =>
    simp only [embed, run_node]
    show Ran.mk (List.replicate parts []).length _ = _
    rw [List.length_replicate]

theorem runBoth_embed (r : Ran Row) : runBoth (embed r) = (r, r) := by
  have h1 : (runBoth (embed r)).1 = r := run_embed r
  have h2 : (runBoth (embed r)).2 = r := (runBoth_snd (embed r)).trans (run_embed r)
  calc runBoth (embed r) = ((runBoth (embed r)).1, (runBoth (embed r)).2) := rfl
    _ = (r, r) := by rw [h1, h2]

theorem strip_embed (r : Ran Row) : strip (embed r) = embed r := rfl

/-- The executions a node reads: the plan without its head below a boundary, the plan elsewhere. -/
def Kind.reads (k : Kind Row) (r : Ran Row × Ran Row) : Ran Row := if k.isNet then r.2 else r.1

theorem runKind_embed (k : Kind Row) (tc : TaskCount) (rs : List (Ran Row × Ran Row)) :
    run (.node k tc (rs.map fun r => embed (k.reads r))) = runKind k rs := by
  rw [run_node, List.map_map]
  have e : rs.map (runBoth ∘ fun r => embed (k.reads r)) = rs.map fun r => (k.reads r, k.reads r) := by
    apply List.map_congr_left
    intro r _
    exact runBoth_embed _
  rw [e]
  have g1 : ∀ i, ((rs.map fun r => (k.reads r, k.reads r)).getD i (.none, .none)).1 = k.reads (rs.getD i (.none, .none)) := by
    intro i
    rw [List.getD_eq_getElem?_getD, List.getD_eq_getElem?_getD, List.getElem?_map]
    cases rs[i]? with
    | none => cases k <;> rfl
    | some r => rfl
  have g2 : ∀ i, ((rs.map fun r => (k.reads r, k.reads r)).getD i (.none, .none)).2 = k.reads (rs.getD i (.none, .none)) := by
    intro i
    rw [List.getD_eq_getElem?_getD, List.getD_eq_getElem?_getD, List.getElem?_map]
    cases rs[i]? with
    | none => cases k <;> rfl
    | some r => rfl
  cases k with
  | join m s => cases m <;> simp only [runKind, g1] <;> rfl
  | _ => simp only [runKind, g1, g2, List.map_map, Function.comp_def] <;> rfl

/-- A plan may be executed without its head. -/
theorem Runs.strip {p : Plan Row} {r} (h : Runs p r) (hk : p.kind.isHead = true → p.children ≠ []) :
    ∃ b, Runs (Tree.strip p) (r.2, b) := by
  cases p with
  | node k tc cs =>
    obtain ⟨rs, ⟨hl, hrs⟩, h1, h2, h3⟩ := runs_node.mp h
    cases hh : k.isHead with
    | false =>
      rw [hh] at h3
      simp only [Bool.false_eq_true, if_false] at h3
      have : Tree.strip (.node k tc cs) = .node k tc cs := by
        cases cs with
        | nil => rfl
        | cons c cs => simp [Tree.strip, hh]
      rw [this]
      refine ⟨r.2, ?_⟩
      rw [h3]
      refine runs_node.mpr ⟨rs, ⟨hl, hrs⟩, h1, h2, ?_⟩
      rw [if_neg (by simp [hh])]
    | true =>
      rw [if_pos hh] at h3
      cases cs with
      | nil => exact absurd rfl (hk hh)
      | cons c cs =>
        simp only [Tree.strip, hh, if_true]
        cases rs with
        | nil => simp at hl
        | cons r0 rs =>
          refine ⟨r0.2, ?_⟩
          rw [h3]
          exact hrs 0 c r0 rfl rfl

theorem Ordered.strip {p : Plan Row} {o} (h : Ordered one p o) (hk : p.kind.isHead = true → o = none) :
    Ordered one (Tree.strip p) o := by
  cases p with
  | node k tc cs =>
    cases cs with
    | nil => exact h
    | cons c cs =>
      simp only [Tree.strip]
      split
      · rename_i hh
        rw [hk hh]
        obtain ⟨a, h1, _⟩ := h.inv
        exact (h1 0 c rfl).weaken
      · exact h

theorem finish {k : Kind Row} {tc rs} {a : Nat → Option (Row → Row → Bool)} {r : Ran Row × Ran Row} {w T I d}
    (hs : KidsSorted rs a) (hr : Reads k a) (hf : k.noFetch) (e1 : r.1.parts = (runKind k rs).parts)
    (e2 : ∀ w ctx q, Emits k rs w ctx q (r.1.exec w ctx q))
    (h : Good (run (.node k tc (rs.map fun r => embed (k.reads r)))) w T I d) : Good r.1 w T I d := by
  rw [runKind_embed] at h
  exact h.congr e1 fun ctx q => emits_perm hs hr hf (e2 w ctx q)

theorem get_embed {k : Kind Row} {rs : List (Ran Row × Ran Row)} {i : Nat} {e : Plan Row}
    (h : (rs.map fun r => embed (k.reads r))[i]? = some e) : ∃ r, rs[i]? = some r ∧ e = embed (k.reads r) := by
  rw [List.getElem?_map] at h
  cases hi : rs[i]? with
  | none => rw [hi] at h; cases h
  | some r => rw [hi] at h; cases h; exact ⟨r, rfl, rfl⟩

/-- Executing a legal plan whose operators get their inputs in order produces one of its answers. -/
theorem Legal.runs_good {ph : Bool} {T : Nat} {p : Plan Row} {I : Info Row} (h : Legal ph T p I) (hT : 0 < T) :
    ∀ {o r}, Ordered one p o → Runs p r → ∀ w, ∃ d, Answer p d ∧ Good r.1 w T I d := by
  have kid1 : ∀ {k : Kind Row} {tc c o r}, Ordered one (.node k tc [c]) o → Runs (.node k tc [c]) r →
      ∃ a rc, Runs c rc ∧ Ordered one c (a 0) ∧ KidsSorted [rc] a ∧ Reads k a ∧ r.1.parts = (runKind k [rc]).parts
        ∧ ∀ w ctx q, Emits k [rc] w ctx q (r.1.exec w ctx q) := by
    intro k tc c o r ho hr
    obtain ⟨a, rs, ⟨hl, hrs⟩, h1, h2, h3, h4, h5, _⟩ := ho.kids hr
    match rs, hl with
    | [rc], _ => exact ⟨a, rc, hrs 0 c rc rfl rfl, h1 0 c rfl, h2, h3, h4, h5⟩
  have kid2 : ∀ {k : Kind Row} {tc b c o r}, Ordered one (.node k tc [b, c]) o → Runs (.node k tc [b, c]) r →
      ∃ a rb rc, Runs b rb ∧ Runs c rc ∧ Ordered one b (a 0) ∧ Ordered one c (a 1) ∧ KidsSorted [rb, rc] a ∧ Reads k a
        ∧ r.1.parts = (runKind k [rb, rc]).parts ∧ ∀ w ctx q, Emits k [rb, rc] w ctx q (r.1.exec w ctx q) := by
    intro k tc b c o r ho hr
    obtain ⟨a, rs, ⟨hl, hrs⟩, h1, h2, h3, h4, h5, _⟩ := ho.kids hr
    match rs, hl with
    | [rb, rc], _ => exact ⟨a, rb, rc, hrs 0 b rb rfl rfl, hrs 1 c rc rfl rfl, h1 0 b rfl, h1 1 c rfl, h2, h3, h4, h5⟩
  have net : ∀ {c : Plan Row} {rc o'} {N : Nat} {J : Info Row}, Legal ph N (Tree.strip c) J → Ordered one c o' → Runs c rc →
      ∃ b, Runs (Tree.strip c) (rc.2, b) ∧ Ordered one (Tree.strip c) none := by
    intro c rc o' N J hl ho hr
    have hne : c.kind.isHead = true → c.children ≠ [] := by
      intro hk hcs
      cases c with
      | node k tc cs =>
        change cs = [] at hcs
        subst hcs
        change k.isHead = true at hk
        change Legal ph N (.node k tc []) J at hl
        clear ho hr kid1 kid2
        generalize hp : Plan.node k tc [] = p at hl
        induction hl with
        | leaf => cases hp; simp [Kind.isHead] at hk
        | distLeaf => cases hp; simp [Kind.isHead] at hk
        | opKeyed => cases hp; simp [Kind.isHead] at hk
        | opSingle => cases hp; simp [Kind.isHead] at hk
        | union => cases hp; simp [Kind.isHead] at hk
        | ciu => cases hp; simp [Kind.isHead] at hk
        | forget _ ih => exact ih hp
        | trivial _ ih => exact ih hp
        | repFlip _ ih => exact ih hp
        | coarsen _ _ ih => exact ih hp
        | _ => cases hp
    obtain ⟨b, hb⟩ := hr.strip hne
    exact ⟨b, hb, ho.weaken.strip fun _ => rfl⟩
  induction h with
  | @leaf tc ps hne =>
    intro o r ho hr w
    obtain ⟨a, rs, ⟨hl, hrs⟩, h1, h2, h3, h4, h5, _⟩ := ho.kids hr
    obtain rfl := List.length_eq_zero_iff.mp hl
    exact ⟨_, answer_node.mpr ⟨[], ⟨rfl, by simp⟩, rfl⟩, finish (tc := tc) h2 h3 True.intro h4 h5 (good_leaf _ _ w)⟩
  | @distLeaf tc _ _ _ _ _ g1 g2 g3 g4 =>
    intro o r ho hr w
    obtain ⟨a, rs, ⟨hl, hrs⟩, h1, h2, h3, h4, h5, _⟩ := ho.kids hr
    obtain rfl := List.length_eq_zero_iff.mp hl
    exact ⟨_, answer_node.mpr ⟨[], ⟨rfl, by simp⟩, rfl⟩,
      finish (tc := tc) h2 h3 True.intro h4 h5 (good_distLeaf hT g1 g2 g3 g4 w)⟩
  | @opLocal tc g red c T P d d' E E' hg _ hd _ ih =>
    intro o r ho hr w
    obtain ⟨a, rc, r1, o1, h2, h3, h4, h5⟩ := kid1 ho hr
    obtain ⟨x, hx, hgood⟩ := ih hT o1 r1 w
    rw [← run_embed rc.1] at hgood
    obtain ⟨y, hy, h⟩ := good_opLocal (tc := tc) (red := red) hg hd hgood
    exact ⟨y, answer_one.mpr ⟨x, hx, hy⟩, finish (tc := tc) h2 h3 True.intro h4 h5 h⟩
  | @opKeyed tc g red cs T P hs Es d' E' hk hred hd hne hl hl' hcs ih =>
    intro o r ho hr w
    obtain ⟨a, rs, ⟨hrl, hrs⟩, h1, h2, h3, h4, h5, _⟩ := ho.kids hr
    have hP : 0 < P := by
      have h0 : 0 < cs.length := List.length_pos_iff.mpr hne
      exact (hcs 0 cs[0] hs[0] Es[0] (by simp) (by simp) (by simp)).pos
    obtain ⟨ds, hds, hall⟩ := exists_list (P := fun i c d => Answer c d ∧ ∀ h E rc, hs[i]? = some h → Es[i]? = some E →
        rs[i]? = some rc → Good rc.1 w T ⟨P, some h, false, E⟩ d) cs (by
      intro i c e
      have := (List.getElem?_eq_some_iff.mp e).1
      obtain ⟨d, g1, g2⟩ := ih i c (hs[i]'(by omega)) (Es[i]'(by omega)) e (by simp) (by simp) hT (h1 i c e)
        (hrs i c (rs[i]'(by omega)) e (by simp)) w
      refine ⟨d, g1, ?_⟩
      intro h E rc e1 e2 e3
      rw [List.getElem?_eq_some_iff] at e1 e2 e3
      obtain ⟨_, rfl⟩ := e1
      obtain ⟨_, rfl⟩ := e2
      obtain ⟨_, rfl⟩ := e3
      exact g2)
    obtain ⟨x, hx, h⟩ := good_opKeyed (tc := tc) (red := red) (cs := rs.map fun r => embed ((Kind.op g red).reads r)) hT hP hk hd
      (by intro e; simp at e; subst e; simp at hrl; exact hne (List.length_eq_zero_iff.mp hrl.symm))
      (by simp; omega) (by simp; omega) (ds := ds) (by simp; omega) (w := w) (by
        intro i c h E d e1 e2 e3 e4
        obtain ⟨rc, f1, rfl⟩ := get_embed e1
        rw [run_embed]
        have hi := (List.getElem?_eq_some_iff.mp f1).1
        exact (hall i (cs[i]'(by omega)) d (by simp) e4).2 h E rc e2 e3 f1)
    exact ⟨x, answer_node.mpr ⟨ds, ⟨hds, fun i c d e1 e2 => (hall i c d e1 e2).1⟩, hx⟩,
      finish (tc := tc) h2 h3 True.intro h4 h5 h⟩
  | @opSingle tc g red cs Es E' hg _ hne hl _ ih =>
    intro o r ho hr w
    obtain ⟨a, rs, ⟨hrl, hrs⟩, h1, h2, h3, h4, h5, _⟩ := ho.kids hr
    obtain ⟨ds, hds, hall⟩ := exists_list (P := fun i c d => Answer c d ∧ ∀ E rc, Es[i]? = some E → rs[i]? = some rc →
        Good rc.1 w 1 ⟨1, none, false, E⟩ d) cs (by
      intro i c e
      have := (List.getElem?_eq_some_iff.mp e).1
      obtain ⟨d, g1, g2⟩ := ih i c (Es[i]'(by omega)) e (by simp) hT (h1 i c e) (hrs i c (rs[i]'(by omega)) e (by simp)) w
      refine ⟨d, g1, ?_⟩
      intro E rc e1 e2
      rw [List.getElem?_eq_some_iff] at e1 e2
      obtain ⟨_, rfl⟩ := e1
      obtain ⟨_, rfl⟩ := e2
      exact g2)
    obtain ⟨x, hx, h⟩ := good_opSingle (tc := tc) (red := red) (cs := rs.map fun r => embed ((Kind.op g red).reads r)) hg
      (by intro e; simp at e; subst e; simp at hrl; exact hne (List.length_eq_zero_iff.mp hrl.symm))
      (by simp; omega) (ds := ds) (by simp; omega) (w := w) (by
        intro i c E d e1 e2 e3
        obtain ⟨rc, f1, rfl⟩ := get_embed e1
        rw [run_embed]
        have hi := (List.getElem?_eq_some_iff.mp f1).1
        exact (hall i (cs[i]'(by omega)) d (by simp) e3).2 E rc e2 f1)
    exact ⟨x, answer_node.mpr ⟨ds, ⟨hds, fun i c d e1 e2 => (hall i c d e1 e2).1⟩, hx⟩,
      finish (tc := tc) h2 h3 True.intro h4 h5 h⟩
  | @joinSafe tc m s b p T P d d' hm hs hd _ _ ihb ihp =>
    intro o r ho hr w
    obtain ⟨a, rb, rc, r1, r2, o1, o2, h2, h3, h4, h5⟩ := kid2 ho hr
    obtain ⟨x, hx, hb⟩ := ihb hT o1 r1 w
    obtain ⟨y, hy, hp⟩ := ihp hT o2 r2 w
    rw [← run_embed rb.1] at hb
    rw [← run_embed rc.1] at hp
    exact ⟨_, answer_two.mpr ⟨x, y, hx, hy, rfl⟩, finish (tc := tc) h2 h3 True.intro h4 h5 (good_joinSafe hm hs hd hb hp)⟩
  | @joinSingle tc m s b p P hm hu _ hp ihb ihp =>
    intro o r ho hr w
    obtain ⟨a, rb, rc, r1, r2, o1, o2, h2, h3, h4, h5⟩ := kid2 ho hr
    obtain ⟨x, hx, hb⟩ := ihb hT o1 r1 w
    obtain ⟨y, hy, hp'⟩ := ihp hT o2 r2 w
    rw [← run_embed rb.1] at hb
    rw [← run_embed rc.1] at hp'
    exact ⟨_, answer_two.mpr ⟨x, y, hx, hy, rfl⟩, finish (tc := tc) h2 h3 True.intro h4 h5 (good_joinSingle hp.pos hm hu hb hp')⟩
  | @joinPart tc s l r' T P d' he hn hd hl _ ihl ihr =>
    intro o r ho hr w
    obtain ⟨a, rb, rc, r1, r2, o1, o2, h2, h3, h4, h5⟩ := kid2 ho hr
    obtain ⟨x, hx, hb⟩ := ihl hT o1 r1 w
    obtain ⟨y, hy, hp'⟩ := ihr hT o2 r2 w
    rw [← run_embed rb.1] at hb
    rw [← run_embed rc.1] at hp'
    exact ⟨_, answer_two.mpr ⟨x, y, hx, hy, rfl⟩, finish (tc := tc) h2 h3 True.intro h4 h5 (good_joinPart hT hl.pos he hn hd hb hp')⟩
  | @union tc cs T E Ps _ hl _ ih =>
    intro o r ho hr w
    obtain ⟨a, rs, ⟨hrl, hrs⟩, h1, h2, h3, h4, h5, _⟩ := ho.kids hr
    obtain ⟨ds, hds, hall⟩ := exists_list (P := fun i c d => Answer c d ∧ ∀ P rc, Ps[i]? = some P → rs[i]? = some rc →
        Good rc.1 w T ⟨P, none, false, E⟩ d) cs (by
      intro i c e
      have := (List.getElem?_eq_some_iff.mp e).1
      obtain ⟨d, g1, g2⟩ := ih i c (Ps[i]'(by omega)) e (by simp) hT (h1 i c e) (hrs i c (rs[i]'(by omega)) e (by simp)) w
      refine ⟨d, g1, ?_⟩
      intro P rc e1 e2
      rw [List.getElem?_eq_some_iff] at e1 e2
      obtain ⟨_, rfl⟩ := e1
      obtain ⟨_, rfl⟩ := e2
      exact g2)
    refine ⟨_, answer_node.mpr ⟨ds, ⟨hds, fun i c d e1 e2 => (hall i c d e1 e2).1⟩, rfl⟩,
      finish (tc := tc) h2 h3 True.intro h4 h5 (good_union (by simp; omega) (by simp; omega) ?_)⟩
    intro i c P d e1 e2 e3
    obtain ⟨rc, f1, rfl⟩ := get_embed e1
    rw [run_embed]
    have hi := (List.getElem?_eq_some_iff.mp f1).1
    exact (hall i (cs[i]'(by omega)) d (by simp) e3).2 P rc e2 f1
  | @ciu tc ws m cs T E k Ps _ hl hm hra _ _ ih =>
    intro o r ho hr w
    obtain ⟨a, rs, ⟨hrl, hrs⟩, h1, h2, h3, h4, h5, _⟩ := ho.kids hr
    obtain ⟨ds, hds, hall⟩ := exists_list (P := fun i c d => Answer c d ∧ ∀ P rc, Ps[i]? = some P → rs[i]? = some rc →
        Good rc.1 w (k i) ⟨P, none, false, E⟩ d) cs (by
      intro i c e
      have := (List.getElem?_eq_some_iff.mp e).1
      obtain ⟨d, g1, g2⟩ := ih i c (Ps[i]'(by omega)) e (by simp) (hra.1 i this) (h1 i c e) (hrs i c (rs[i]'(by omega)) e (by simp)) w
      refine ⟨d, g1, ?_⟩
      intro P rc e1 e2
      rw [List.getElem?_eq_some_iff] at e1 e2
      obtain ⟨_, rfl⟩ := e1
      obtain ⟨_, rfl⟩ := e2
      exact g2)
    refine ⟨_, answer_node.mpr ⟨ds, ⟨hds, fun i c d e1 e2 => (hall i c d e1 e2).1⟩, rfl⟩,
      finish (tc := tc) h2 h3 True.intro h4 h5 (good_ciu (k := k) (by simp; omega) hm
        (by rw [List.length_map, hrl]; exact hra) (by simp; omega) ?_)⟩
    intro i c P d e1 e2 e3
    obtain ⟨rc, f1, rfl⟩ := get_embed e1
    rw [run_embed]
    have hi := (List.getElem?_eq_some_iff.mp f1).1
    exact (hall i (cs[i]'(by omega)) d (by simp) e3).2 P rc e2 f1
  | @hashRepart tc h n o' c T P E d' hn hd _ ih =>
    intro o r ho hr w
    obtain ⟨a, rc, r1, o1, h2, h3, h4, h5⟩ := kid1 ho hr
    obtain ⟨x, hx, hgood⟩ := ih hT o1 r1 w
    rw [← run_embed rc.1] at hgood
    exact ⟨x, answer_one.mpr ⟨x, hx, rfl⟩, finish (tc := tc) h2 h3 True.intro h4 h5 (good_hashRepart hn hd hgood)⟩
  | @otherRepart tc n deal c T P E _ hd _ ih =>
    intro o r ho hr w
    obtain ⟨a, rc, r1, o1, h2, h3, h4, h5⟩ := kid1 ho hr
    obtain ⟨x, hx, hgood⟩ := ih hT o1 r1 w
    rw [← run_embed rc.1] at hgood
    exact ⟨x, answer_one.mpr ⟨x, hx, rfl⟩, finish (tc := tc) h2 h3 True.intro h4 h5 (good_otherRepart hd hgood)⟩
  | @coalesce tc c T P rep E _ ih =>
    intro o r ho hr w
    obtain ⟨a, rc, r1, o1, h2, h3, h4, h5⟩ := kid1 ho hr
    obtain ⟨x, hx, hgood⟩ := ih hT o1 r1 w
    rw [← run_embed rc.1] at hgood
    exact ⟨x, answer_one.mpr ⟨x, hx, rfl⟩, finish (tc := tc) h2 h3 rfl h4 h5 (good_one (by rw [run_node]; rfl) hgood)⟩
  | @spm tc c T P rep E le _ ih =>
    intro o r ho hr w
    obtain ⟨a, rc, r1, o1, h2, h3, h4, h5⟩ := kid1 ho hr
    obtain ⟨x, hx, hgood⟩ := ih hT o1 r1 w
    rw [← run_embed rc.1] at hgood
    exact ⟨x, answer_one.mpr ⟨x, hx, rfl⟩, finish (tc := tc) h2 h3 rfl h4 h5 (good_one (by rw [run_node]; rfl) hgood)⟩
  | @fetch tc k g c P E E' hk hg _ ih =>
    intro o r ho hr w
    obtain ⟨a, rc, r1, o1, h2, h3, h4, h5⟩ := kid1 ho hr
    obtain ⟨x, hx, hgood⟩ := ih hT o1 r1 w
    -- the fetch sees the rows of all partitions in some order
    have key : ∃ m, m.Perm (rc.1.rows w ⟨0, 1⟩) ∧ r.1.exec w ⟨0, 1⟩ 0 = g.exec w ⟨0, 1⟩ 0 [m] := by
      have := h5 w ⟨0, 1⟩ 0
      rcases hk with rfl | ⟨le, rfl⟩
      · simp only [Emits, ↓reduceIte] at this
        obtain ⟨m, m1, m2⟩ := this
        refine ⟨m, ?_, ?_⟩
        · refine (Merged.perm m1).trans (.of_eq ?_)
          show _ = Ran.rows rc.1 w ⟨0, 1⟩
          rw [Ran.rows, List.flatMap_def]; rfl
        · rw [m2]
          exact g.stream_ok _ _ _ _ (inOrder_one (by rw [h3 g rfl]; exact True.intro))
      · simp only [Emits, ↓reduceIte] at this
        obtain ⟨m, m1, m2⟩ := this
        refine ⟨m, ?_, ?_⟩
        · refine (Merged.perm m1).trans (.of_eq ?_)
          show _ = Ran.rows rc.1 w ⟨0, 1⟩
          rw [Ran.rows, List.flatMap_def]; rfl
        · rw [m2]
          refine g.stream_ok _ _ _ _ (inOrder_one ?_)
          rcases h3.2.2 g rfl with e | e <;> rw [e]
          · exact True.intro
          · refine mixed_sorted h3.1 m1 ?_
            intro y hy
            obtain ⟨i, _, rfl⟩ := List.mem_map.mp hy
            have := h2 0 w ⟨0, 1⟩ i
            rwa [h3.2.1] at this
    obtain ⟨m, m1, m2⟩ := key
    have hsx : E.eqv m x := by
      have := hgood.share rfl
      simp only [List.range_one, List.flatMap_cons, List.flatMap_nil, List.append_nil] at this
      exact E.trans (E.ofPerm m1) this
    obtain ⟨y, hy, ey⟩ := hg [m] [x] _ ⟨hsx, True.intro⟩ (g.ok w ⟨0, 1⟩ 0 _)
    have hp1 : r.1.parts = 1 := by rcases hk with rfl | ⟨le, rfl⟩ <;> exact h4
    refine ⟨y, answer_one.mpr ⟨x, hx, ?_⟩, hp1, fun _ => ?_, fun h => by simp at h, fun h hh => by simp at hh⟩
    · rcases hk with rfl | ⟨le, rfl⟩ <;> exact hy
    · simpa only [List.range_one, List.flatMap_cons, List.flatMap_nil, List.append_nil, Ran.rows, hp1, m2] using ey
  | @broadcast tc c T P rep E _ ih =>
    intro o r ho hr w
    obtain ⟨a, rc, r1, o1, h2, h3, h4, h5⟩ := kid1 ho hr
    obtain ⟨x, hx, hgood⟩ := ih hT o1 r1 w
    rw [← run_embed rc.1] at hgood
    exact ⟨x, answer_one.mpr ⟨x, hx, rfl⟩, finish (tc := tc) h2 h3 True.intro h4 h5 (good_broadcast hgood)⟩
  | @shuffle tc h p N num c T P E hp hN _ _ hc ih =>
    intro o r ho hr w
    obtain ⟨a, rc, r1, o1, h2, h3, h4, h5⟩ := kid1 ho hr
    obtain ⟨b, r2, o2⟩ := net hc o1 r1
    obtain ⟨x, hx, hgood⟩ := ih hN o2 r2 true
    rw [← run_embed (rc.2, b).1, ← strip_embed (rc.2, b).1] at hgood
    exact ⟨x, answer_one.mpr ⟨x, answer_strip _ ▸ hx, rfl⟩, finish (tc := tc) h2 h3 True.intro h4 h5
      (good_shuffle hT hp (by rw [runBoth_embed, strip_embed, run_embed]) hgood w)⟩
  | @netCoalesce tc p N num c T P E hN hp _ _ hc ih =>
    intro o r ho hr w
    obtain ⟨a, rc, r1, o1, h2, h3, h4, h5⟩ := kid1 ho hr
    obtain ⟨b, r2, o2⟩ := net hc o1 r1
    obtain ⟨x, hx, hgood⟩ := ih hN o2 r2 true
    rw [← run_embed (rc.2, b).1, ← strip_embed (rc.2, b).1] at hgood
    exact ⟨x, answer_one.mpr ⟨x, answer_strip _ ▸ hx, rfl⟩, finish (tc := tc) h2 h3 True.intro h4 h5
      (good_netCoalesce hT hp (by rw [runBoth_embed, strip_embed, run_embed]) hgood w)⟩
  | @netBroadcast tc p N num c T E hN _ hc ih =>
    intro o r ho hr w
    obtain ⟨a, rc, r1, o1, h2, h3, h4, h5⟩ := kid1 ho hr
    obtain ⟨b, r2, o2⟩ := net hc o1 r1
    obtain ⟨x, hx, hgood⟩ := ih hN o2 r2 true
    rw [← run_embed (rc.2, b).1, ← strip_embed (rc.2, b).1] at hgood
    exact ⟨x, answer_one.mpr ⟨x, answer_strip _ ▸ hx, rfl⟩, finish (tc := tc) h2 h3 True.intro h4 h5
      (good_netBroadcast hc.pos (by rw [runBoth_embed, strip_embed, run_embed]) hgood w)⟩
  | forget _ ih =>
    intro o r ho hr w
    obtain ⟨a, ha, h⟩ := ih hT ho hr w
    exact ⟨a, ha, h.parts, h.share, h.copy, fun h hh => by simp at hh⟩
  | trivial _ ih =>
    intro o r ho hr w
    obtain ⟨a, ha, h⟩ := ih hT ho hr w
    refine ⟨a, ha, h.parts, h.share, h.copy, ?_⟩
    intro h hh i hi q hq x hx
    simp only [Nat.mul_one] at hq ⊢
    omega
  | @repFlip p P d rep rep' E _ ih =>
    intro o r ho hr w
    obtain ⟨a, ha, hg⟩ := ih hT ho hr w
    have h1 : E.eqv (r.1.rows w ⟨0, 1⟩) a := by
      cases rep with
      | false =>
        have := hg.share rfl
        simpa only [List.range_one, List.flatMap_cons, List.flatMap_nil, List.append_nil] using this
      | true => exact hg.copy rfl 0 Nat.one_pos
    refine ⟨a, ha, hg.parts, fun _ => ?_, fun _ i hi => ?_, fun h hh => by simp at hh⟩
    · simpa only [List.range_one, List.flatMap_cons, List.flatMap_nil, List.append_nil] using h1
    · have : i = 0 := by omega
      subst this
      exact h1
  | coarsen hE _ ih =>
    intro o r ho hr w
    obtain ⟨a, ha, h⟩ := ih hT ho hr w
    exact ⟨a, ha, h.parts, fun h' => hE _ _ (h.share h'), fun h' i hi => hE _ _ (h.copy h' i hi), h.dist⟩

theorem Mixed.exists {keep : Option (Row → Row → Bool)} (h : ∀ le, keep = some le → TotalOrder le) (ls : List (List Row)) :
    ∃ l, Mixed keep ls l := by
  cases keep with
  | none => exact Merged.exists (R := fun _ _ => True) ⟨fun _ _ => .inl True.intro, fun _ _ _ _ _ => True.intro⟩ ls
  | some le => exact Merged.exists (h le rfl) ls

theorem probed_exists {s : JoinSpec Row} (hs : s.safe = true) (build ps : List Row) :
    ∃ l, l.Perm (joinRows s build ps) ∧ Probed s build ps l := by
  refine ⟨ps.flatMap fun p => joinRows s build [p], ?_, ps.map fun p => joinRows s build [p], by simp, ?_, ?_⟩
  · have := joinRows_probe_flatMap s hs build ps (fun p => [p])
    simpa using this.symm
  · intro i p m e1 e2
    rw [List.getElem?_map, e1] at e2
    cases e2
    exact .refl _
  · rw [List.flatMap_def]

theorem emits_exists {k : Kind Row} {a : Nat → Option (Row → Row → Bool)} (h : Reads k a) (rs : List (Ran Row × Ran Row))
    (w : Bool) (ctx : TaskCtx) (q : Nat) : ∃ l, Emits k rs w ctx q l := by
  cases k with
  | join m s =>
    cases hs : s.safe with
    | false => exact ⟨_, .refl _, fun h => by rw [hs] at h; cases h⟩
    | true =>
      obtain ⟨l, h1, h2⟩ := probed_exists hs (buildRows m (rs.getD 0 (.none, .none)).1 w ctx q)
        ((rs.getD 1 (.none, .none)).1.exec w ctx q)
      refine ⟨l, ?_, fun _ => h2⟩
      refine h1.trans (.of_eq ?_)
      cases m <;> simp [runKind, collectExec, hs, buildRows]
  | hashRepart hh n keep => exact Mixed.exists (fun le e => h le e) _
  | coalesce f =>
    by_cases hq : q = 0
    · obtain ⟨m, hm⟩ := Mixed.exists (keep := none) (by simp) ((List.range (rs.getD 0 (.none, .none)).1.parts).map
        ((rs.getD 0 (.none, .none)).1.exec w ctx))
      exact ⟨streamFetch f w ctx m, by simp only [Emits, if_pos hq]; exact ⟨m, hm, rfl⟩⟩
    · exact ⟨[], by simp only [Emits, if_neg hq]⟩
  | spm f le =>
    by_cases hq : q = 0
    · obtain ⟨m, hm⟩ := Mixed.exists (keep := some le) (by rintro _ ⟨⟩; exact h.1) ((List.range (rs.getD 0 (.none, .none)).1.parts).map
        ((rs.getD 0 (.none, .none)).1.exec w ctx))
      exact ⟨streamFetch f w ctx m, by simp only [Emits, if_pos hq]; exact ⟨m, hm, rfl⟩⟩
    · exact ⟨[], by simp only [Emits, if_neg hq]⟩
  | shuffle => exact Mixed.exists (keep := none) (by simp) _
  | netBroadcast => exact Mixed.exists (keep := none) (by simp) _
  | otherRepart => exact ⟨_, .refl _⟩
  | _ => exact ⟨_, rfl⟩

/-- Plans whose operators get their inputs in order can be executed. -/
theorem Ordered.exists_runs {p : Plan Row} {o} (h : Ordered one p o) : ∃ r, Runs p r := by
  induction h with
  | @node k tc cs o a _ hr _ ih =>
    obtain ⟨rs, h1, h2⟩ := exists_list (P := fun _ c r => Runs c r) cs ih
    choose f hf using emits_exists hr rs
    exact ⟨(⟨(runKind k rs).parts, f⟩, if k.isHead then (rs.getD 0 (.none, .none)).1 else ⟨(runKind k rs).parts, f⟩),
      runs_node.mpr ⟨rs, ⟨h1, h2⟩, rfl, hf, rfl⟩⟩

theorem Ordered.exists_delivers {p : Plan Row} {o} (h : Ordered one p o) : ∃ l, Delivers p l :=
  let ⟨r, hr⟩ := h.exists_runs
  ⟨_, r, hr, rfl⟩

end DD.Tree
