/-
Every execution of a plan is one of a running query.
-/
import Verif.Model.NetworkRows
import Verif.Lemmas.NetworkWithin
import Verif.Lemmas.FaultyQuiet

namespace DD.Net

open DD.Limit DD.Tree DD.Tree.Rec DD.Faulty

variable {Row α σ : Type}

/-! ### Nodes only look at what their task reads -/

/-- The two executions are the same where a task in context `ctx` can see it. -/
def Agree (w : Bool) (ctx : TaskCtx) (r r' : Ran Row) : Prop := r'.parts = r.parts ∧ ∀ q < r.parts, r'.exec w ctx q = r.exec w ctx q

/-- Partitions that are read exist. -/
def Inside (k : Kind Row) (rs : List (Ran Row × Ran Row)) : Prop :=
  match k with
  | .op .. => ∀ r ∈ rs, r.1.parts = (rs.getD 0 (.none, .none)).1.parts
  | .join m _ => 0 < (rs.getD 0 (.none, .none)).1.parts
      ∧ (m = .partitioned → (rs.getD 0 (.none, .none)).1.parts = (rs.getD 1 (.none, .none)).1.parts)
  | _ => True

theorem Agree.range {w : Bool} {ctx : TaskCtx} {r r' : Ran Row} (h : Agree w ctx r r') {β : Type} (f : List Row → β) :
    ((List.range r'.parts).map fun i => f (r'.exec w ctx i)) = (List.range r.parts).map fun i => f (r.exec w ctx i) := by
  rw [h.1]
  exact List.map_congr_left fun i hi => by rw [h.2 i (List.mem_range.mp hi)]

theorem Agree.rows {w : Bool} {ctx : TaskCtx} {r r' : Ran Row} (h : Agree w ctx r r') : r'.rows w ctx = r.rows w ctx := by
  unfold Ran.rows
  rw [h.1]
  rw [List.flatMap_def, List.flatMap_def]
  exact congrArg List.flatten (List.map_congr_left fun i hi => h.2 i (List.mem_range.mp hi))

theorem unionExec_agree {w : Bool} {ctx : TaskCtx} : ∀ {rs rs' : List (Ran Row)}, rs'.length = rs.length →
    (∀ (i : Nat) r r', rs[i]? = some r → rs'[i]? = some r' → Agree w ctx r r') → ∀ q, unionExec w ctx rs' q = unionExec w ctx rs q
  | [], [], _, _, q => rfl
  | r :: rs, r' :: rs', hl, h, q => by
    have h0 := h 0 r r' rfl rfl
    rw [unionExec, unionExec, h0.1]
    split
    · rename_i hq; exact h0.2 q hq
    · exact unionExec_agree (by simpa using hl) (fun i r r' e e' => h (i + 1) r r' e e') _
  | [], _ :: _, hl, _, _ => by simp at hl
  | _ :: _, [], hl, _, _ => by simp at hl

theorem getD_agree {w : Bool} {ctx : TaskCtx} {rs rs' : List (Ran Row × Ran Row)} (hl : rs'.length = rs.length)
    (h : ∀ (i : Nat) r r', rs[i]? = some r → rs'[i]? = some r' → Agree w ctx r.1 r'.1) (i : Nat) :
    Agree w ctx (rs.getD i (.none, .none)).1 (rs'.getD i (.none, .none)).1 := by
  rw [List.getD_eq_getElem?_getD, List.getD_eq_getElem?_getD]
  by_cases hi : i < rs.length
  · have e1 := List.getElem?_eq_getElem hi
    have e2 := List.getElem?_eq_getElem (show i < rs'.length by omega)
    rw [e1, e2]
    exact h i _ _ e1 e2
  · rw [List.getElem?_eq_none (by omega), List.getElem?_eq_none (by omega)]
    exact ⟨rfl, fun _ _ => rfl⟩

theorem emits_agree {k : Kind Row} {rs rs' : List (Ran Row × Ran Row)} {w : Bool} {ctx : TaskCtx} {q : Nat} {l : List Row}
    (hk : k.isNet = false) (hc : ∀ ws m, k ≠ .ciu ws m) (hb : ∀ n, k ≠ .broadcast n) (hin : Inside k rs) (hl : rs'.length = rs.length)
    (h : ∀ (i : Nat) r r', rs[i]? = some r → rs'[i]? = some r' → Agree w ctx r.1 r'.1) (hq : q < (runKind k rs).parts)
    (he : Emits k rs w ctx q l) : Emits k rs' w ctx q l := by
  have hg := getD_agree hl h
  cases k with
  | leaf ps => exact he
  | distLeaf o vs => exact he
  | ciu ws m => exact absurd rfl (hc ws m)
  | broadcast n => exact absurd rfl (hb n)
  | shuffle => cases hk
  | netCoalesce => cases hk
  | netBroadcast => cases hk
  | op g red =>
    have : (rs'.map fun c => c.1.exec w ctx q) = rs.map fun c => c.1.exec w ctx q := by
      refine List.ext_getElem (by simp [hl]) fun i hi hi' => ?_
      simp only [List.length_map] at hi hi'
      simp only [List.getElem_map]
      have ha := h i _ _ (List.getElem?_eq_getElem hi') (List.getElem?_eq_getElem hi)
      refine ha.2 q ?_
      rw [hin _ (List.getElem_mem hi')]
      exact hq
    change l = g.stream w ctx q (rs'.map fun c => c.1.exec w ctx q)
    rw [this]
    exact he
  | join m s =>
    obtain ⟨h1, h2⟩ := he
    have hq1 : q < (rs.getD 1 (.none, .none)).1.parts := by
      cases m with
      | partitioned => rw [← hin.2 rfl]; exact hq
      | _ => exact hq
    have e1 := (hg 1).2 q hq1
    have e0 := (hg 0).2 0 hin.1
    cases m with
    | partitioned =>
      have e0' := (hg 0).2 q hq
      refine ⟨?_, fun hs => ?_⟩
      · change l.Perm (joinRows s _ _)
        rw [e0', e1]
        exact h1
      · have := h2 hs
        unfold buildRows at this ⊢
        simp only [if_true] at this ⊢
        rw [e0', e1]
        exact this
    | _ =>
      refine ⟨?_, fun hs => ?_⟩
      · change l.Perm (collectExec s _ _ w ctx q)
        unfold collectExec
        rw [(hg 1).rows, e1, e0, (hg 1).1]
        exact h1
      · have := h2 hs
        unfold buildRows at this ⊢
        simp only [reduceCtorEq, if_false] at this ⊢
        rw [e0, e1]
        exact this
  | union =>
    change l = unionExec w ctx (rs'.map (·.1)) q
    rw [unionExec_agree (rs := rs.map (·.1)) (by simp [hl]) ?_ q]
    · exact he
    · intro i r r' e e'
      rw [List.getElem?_map] at e e'
      obtain ⟨x, hx, rfl⟩ := Option.map_eq_some_iff.mp e
      obtain ⟨x', hx', rfl⟩ := Option.map_eq_some_iff.mp e'
      exact h i x x' hx hx'
  | hashRepart hh n keep =>
    change Mixed keep ((List.range _).map fun i => hashPart hh n q _) l
    rw [(hg 0).range (hashPart hh n q)]
    exact he
  | otherRepart n deal =>
    change l.Perm (deal ((List.range _).map fun i => _) q)
    have := (hg 0).range id
    simp only [id_eq] at this
    rw [this]
    exact he
  | coalesce f =>
    simp only [Emits] at he ⊢
    have := (hg 0).range id
    simp only [id_eq] at this
    change if q = 0 then ∃ m, Interleaved ((List.range _).map fun i => (rs'.getD 0 (.none, .none)).1.exec w ctx i) m ∧ _ else _
    rw [this]
    exact he
  | spm f le =>
    simp only [Emits] at he ⊢
    have := (hg 0).range id
    simp only [id_eq] at this
    change if q = 0 then ∃ m, Mixed (some le) ((List.range _).map fun i => (rs'.getD 0 (.none, .none)).1.exec w ctx i) m ∧ _ else _
    rw [this]
    exact he

/-! ### What is seen of one node -/

/-- Everything was seen of what the tasks `runs` execute. -/
def Shown (w : Bool) (runs : List (Nat × TaskCtx)) (a : Att Row) (r : Ran Row) : Prop :=
  a.parts = r.parts ∧ ∀ x ∈ runs, ∀ q < r.parts, a.seen w x.2 q = quiet (r.exec w x.2 q)

theorem Shown.agree {w : Bool} {runs : List (Nat × TaskCtx)} {a : Att Row} {r r' : Ran Row} (h : Shown w runs a r) (hc : a.Continues r')
    {x : Nat × TaskCtx} (hx : x ∈ runs) : Agree w x.2 r r' := by
  refine ⟨by rw [hc.1, h.1], fun q hq => quiet_of ?_⟩
  rw [← h.2 x hx q hq]
  exact hc.2 w x.2 q

theorem execIn_lt (children : List Nat) : ∀ (es : List Union.Entry) (p : Nat) (r : Union.Run),
    Union.execIn children es p = .ok (some r) → ∃ n, children[r.child]? = some n ∧ r.partition < n
  | [], p, r, h => by simp [Union.execIn] at h
  | e :: es, p, r, h => by
    unfold Union.execIn at h
    split at h
    · cases h
    · rename_i n hn
      split at h
      · cases h; exact ⟨n, hn, by assumption⟩
      · exact execIn_lt children es _ r h

theorem shown_parts {w : Bool} {runs : Nat → List (Nat × TaskCtx)} {as : List (Att Row × Att Row)} {rs : List (Ran Row × Ran Row)}
    (hl : as.length = rs.length) (h : ∀ (i : Nat) a r, as[i]? = some a → rs[i]? = some r → Shown w (runs i) a.1 r.1) :
    as.map (·.1.parts) = rs.map (·.1.parts) := by
  refine List.ext_getElem (by simp [hl]) fun i hi hi' => ?_
  simp only [List.length_map] at hi hi'
  simp only [List.getElem_map]
  exact (h i _ _ (List.getElem?_eq_getElem hi) (List.getElem?_eq_getElem hi')).1

theorem shows_quiet {k : Kind Row} {tc : TaskCount} {cs : List (Plan Row)} {T : Nat} (hk : k.isNet = false) (hok : NodeOk T (.node k tc cs))
    {w : Bool} {runs : List (Nat × TaskCtx)} {as : List (Att Row × Att Row)} {rs : List (Ran Row × Ran Row)} (hl : as.length = rs.length)
    (h : ∀ (i : Nat) a r, as[i]? = some a → rs[i]? = some r → Shown w (runsBelow k runs i) a.1 r.1) (hin : Inside k rs)
    {x : Nat × TaskCtx} (hx : x ∈ runs) (hT : x.2.index < T) {q : Nat} (hq : q < (runKind k rs).parts) {l : List Row}
    (he : Emits k rs w x.2 q l) : Shows false k as w x.2 q (quiet l) := by
  have hkid : ∀ (i : Nat) (r : Ran Row × Ran Row), rs[i]? = some r → ∃ a, as[i]? = some a ∧ Shown w (runsBelow k runs i) a.1 r.1 := by
    intro i r hr
    have hi := (List.getElem?_eq_some_iff.mp hr).1
    exact ⟨_, List.getElem?_eq_getElem (hl ▸ hi), h i _ r (List.getElem?_eq_getElem (hl ▸ hi)) hr⟩
  have hdf : (∀ ws m, k ≠ .ciu ws m) → (∀ n, k ≠ .broadcast n) → ∀ rs', Goes as rs' → Fits k rs' w x.2 q →
      ∃ l', Emits k rs' w x.2 q l' ∧ (quiet l).Of l' := by
    intro hc hb rs' hg _
    refine ⟨l, emits_agree hk hc hb hin (by rw [hg.1, hl]) (fun i r r' e e' => ?_) hq he, of_quiet l⟩
    obtain ⟨a, ha, hs⟩ := hkid i r e
    refine hs.agree (hg.2 i a r' ha e').1 (x := x) ?_
    exact List.mem_filterMap.mpr ⟨x, hx, by rw [childCtx_other hc]; rfl⟩
  cases k with
  | ciu ws m =>
    obtain ⟨hlen, honce, _⟩ := hok.1 ws m rfl
    have hes := List.getElem?_eq_getElem (l := m) (show x.2.index < m.length by omega)
    have hmem := List.getElem_mem (l := m) (show x.2.index < m.length by omega)
    generalize m[x.2.index]'(by omega) = es at hes hmem
    have hget : m.getD x.2.index [] = es := by rw [List.getD_eq_getElem?_getD, hes]; rfl
    have hl' : l = ciuExec w (rs.map (·.1)) (m.getD x.2.index []) q := he
    rw [hget] at hl'
    unfold ciuExec at hl'
    simp only [Shows]
    rw [hget, shown_parts hl h]
    rw [List.map_map] at hl'
    change l = (match Union.execIn (rs.map fun r => r.1.parts) es q with | .ok (some r) => _ | _ => []) at hl'
    cases hr : Union.execIn (rs.map fun r => r.1.parts) es q with
    | error e => rw [hr] at hl'; subst hl'; exact .inr rfl
    | ok o =>
      cases o with
      | none => rw [hr] at hl'; subst hl'; exact passed_refl _
      | some r =>
        rw [hr] at hl'
        change l = ((rs.map (·.1)).getD r.child ((Ran.none, Ran.none) : Ran Row × Ran Row).1).exec w r.ctx r.partition at hl'
        rw [getD_map rs (·.1) r.child (.none, .none)] at hl'
        obtain ⟨n, hn, hlt⟩ := execIn_lt _ es q r hr
        rw [List.getElem?_map] at hn
        obtain ⟨rc, hrc, rfl⟩ := Option.map_eq_some_iff.mp hn
        obtain ⟨a, ha, hs⟩ := hkid r.child rc hrc
        have hctx := (childCtx_iff (Row := Row) (ws := ws) hes (honce _ hmem) r.child r.ctx).mpr (Union.execIn_child _ es q r hr)
        have := hs.2 (x.1, r.ctx) (List.mem_filterMap.mpr ⟨x, hx, by rw [hctx]; rfl⟩) r.partition hlt
        subst hl'
        dsimp only at this ⊢
        rw [List.getD_eq_getElem?_getD, List.getD_eq_getElem?_getD, ha, hrc]
        change Passed (a.1.seen w r.ctx r.partition) (quiet (rc.1.exec w r.ctx r.partition))
        rw [this]
        exact passed_refl _
  | broadcast n =>
    have hl' : l = (rs.getD 0 (.none, .none)).1.exec w x.2 (q % (rs.getD 0 (.none, .none)).1.parts) := he
    subst hl'
    simp only [Shows]
    change q < (rs.getD 0 (.none, .none)).1.parts * n at hq
    cases rs with
    | nil => simp [Ran.none] at hq
    | cons r rs =>
      obtain ⟨a, ha, hs⟩ := hkid 0 r rfl
      rw [List.getD_eq_getElem?_getD, ha]
      change Replayed false (a.1.seen w x.2 (q % a.1.parts)) (quiet (r.1.exec w x.2 (q % r.1.parts)))
      change q < r.1.parts * n at hq
      have hpos : 0 < r.1.parts := Nat.pos_of_ne_zero fun e => by rw [e, Nat.zero_mul] at hq; omega
      have hx' : x ∈ runsBelow (.broadcast n : Kind Row) runs 0 :=
        List.mem_filterMap.mpr ⟨x, hx, by rw [childCtx_other (by rintro _ _ ⟨⟩)]; rfl⟩
      rw [hs.1, hs.2 x hx' _ (Nat.mod_lt _ hpos)]
      exact replayed_quiet false _
  | shuffle => cases hk
  | netCoalesce => cases hk
  | netBroadcast => cases hk
  | _ => exact hdf (by rintro _ _ ⟨⟩) (by rintro _ ⟨⟩)

/-- Something can be seen of a node, whatever was seen of its children. -/
theorem shows_some {k : Kind Row} (hk : k.isNet = false) {ord : Nat → Option (Row → Row → Bool)} (hr : Reads k ord)
    (as : List (Att Row × Att Row)) (w : Bool) (ctx : TaskCtx) (q : Nat) : ∃ out, Shows false k as w ctx q out := by
  have hdf : ∀ rs, Goes as rs → Fits k rs w ctx q → ∃ l, Emits k rs w ctx q l ∧ (⟨[], false⟩ : Seen Row).Of l := by
    intro rs _ _
    obtain ⟨l, hl⟩ := emits_exists hr rs w ctx q
    exact ⟨l, hl, List.nil_prefix, fun h => by cases h.1⟩
  cases k with
  | ciu ws m =>
    simp only [Shows]
    cases Union.execIn (as.map (·.1.parts)) (m.getD ctx.index []) q with
    | error e => exact ⟨_, .inl rfl⟩
    | ok o =>
      cases o with
      | none => exact ⟨_, passed_refl _⟩
      | some r => exact ⟨_, passed_refl _⟩
  | broadcast n => exact ⟨.failed (.user 0), .inl ⟨_, rfl⟩⟩
  | shuffle => cases hk
  | netCoalesce => cases hk
  | netBroadcast => cases hk
  | _ => exact ⟨_, hdf⟩

/-! ### Boundaries -/

/-- A task runs a node in one context. -/
def Single (runs : List (Nat × TaskCtx)) : Prop := ∀ t c c', (t, c) ∈ runs → (t, c') ∈ runs → c = c'

/-- The contexts are those of `T` tasks. -/
def Exact (T : Nat) (runs : List (Nat × TaskCtx)) : Prop := ∀ x ∈ runs, x.2.index < T ∧ x.2.count = T

theorem single_stageTasks (N : Nat) : Single (stageTasks N) := by
  intro t c c' h h'
  obtain ⟨i, _, e⟩ := List.mem_map.mp h
  obtain ⟨i', _, e'⟩ := List.mem_map.mp h'
  cases e; cases e'; rfl

theorem exact_stageTasks (N : Nat) : Exact N (stageTasks N) := by
  intro x hx
  obtain ⟨i, hi, rfl⟩ := List.mem_map.mp hx
  exact ⟨List.mem_range.mp hi, rfl⟩

theorem Single.below {runs : List (Nat × TaskCtx)} (h : Single runs) (k : Kind Row) (i : Nat) : Single (runsBelow k runs i) := by
  intro t c c' h1 h2
  obtain ⟨x, hx, e⟩ := List.mem_filterMap.mp h1
  obtain ⟨x', hx', e'⟩ := List.mem_filterMap.mp h2
  obtain ⟨d, hd, e⟩ := Option.map_eq_some_iff.mp e
  obtain ⟨d', hd', e'⟩ := Option.map_eq_some_iff.mp e'
  obtain ⟨e1, rfl⟩ := Prod.mk.inj e
  obtain ⟨e2, rfl⟩ := Prod.mk.inj e'
  have := h x.1 x.2 x'.2 hx (by rw [e1, ← e2]; exact hx')
  rw [this, hd'] at hd
  cases hd; rfl

theorem Exact.below {T : Nat} {k : Kind Row} {tc : TaskCount} {cs : List (Plan Row)} (hok : NodeOk T (.node k tc cs)) (hn : k.isNet = false)
    {runs : List (Nat × TaskCtx)} (h : Exact T runs) {i : Nat} (hi : i < cs.length) : Exact (childCount k T i) (runsBelow k runs i) := by
  intro y hy
  obtain ⟨x, hx, e⟩ := List.mem_filterMap.mp hy
  obtain ⟨c, hc, rfl⟩ := Option.map_eq_some_iff.mp e
  rcases isCiu k with ⟨ws, m, rfl⟩ | hk
  · obtain ⟨hlen, honce, kk, hr⟩ := hok.1 ws m rfl
    have hcc : childCount (Row := Row) (.ciu ws m) T i = kk i := unionCount_eq hr hi
    rw [hcc]
    have hidx := (h x hx).1
    have hes := List.getElem?_eq_getElem (l := m) (show x.2.index < m.length by omega)
    have hmem := List.getElem_mem (l := m) (show x.2.index < m.length by omega)
    have := (childCtx_iff (Row := Row) (ws := ws) hes (honce _ hmem) i c).mp hc
    have := hr.2.mem_iff.mp (List.mem_flatten.mpr ⟨_, hmem, this⟩)
    obtain ⟨_, h2, h3⟩ := Union.mem_childTasks.mp this
    exact ⟨h2, h3⟩
  · rw [childCount_same hn hk]
    rw [childCtx_other hk] at hc
    cases hc
    exact h x hx

theorem taskGroup_end_le (n t i : Nat) (h : i < t) : (taskGroup n i t).start + (taskGroup n i t).len ≤ n := by
  rw [← taskGroup_start_succ n t i (by omega)]
  simp only [taskGroup, show t ≠ 0 by omega, if_false]
  have h1 : (i + 1) * (n / t) ≤ t * (n / t) := Nat.mul_le_mul_right _ (by omega)
  have h2 := Nat.div_add_mod n t
  have h3 : min (i + 1) (n % t) ≤ n % t := Nat.min_le_right _ _
  omega

/-- The streams a task reads for a partition exist, and are streams of tasks and partitions that exist. -/
theorem requests_ok {k : Kind Row} {tc : TaskCount} {c : Plan Row} {T : Nat} (hk : k.isNet = true) (hw : NodeWithin T (.node k tc [c]))
    {ctx : TaskCtx} (hctx : ctx.index < T ∧ ctx.count = T) (q : Nat) : ∃ pulls, requests k ctx q = .ok pulls ∧ ∀ pull ∈ pulls, pull.task < k.tasks
      ∧ (∀ p n num, k = .netCoalesce p n num → pull.partition < (strip c).parts) := by
  cases k <;> first | cases hk | skip
  · refine ⟨_, rfl, fun pull hp => ?_⟩
    obtain ⟨j, hj, rfl⟩ := List.mem_map.mp hp
    exact ⟨List.mem_range.mp hj, by rintro _ _ _ ⟨⟩⟩
  · rename_i p n num
    obtain ⟨c', e, hT, hpos, hp⟩ := hw
    cases e
    change ∃ pulls, (CoalesceExec.mk p n).execute ctx q = .ok pulls ∧ _
    have hppt : p / max (divCeil n ctx.count) 1 = (strip c).parts := by
      rw [hctx.2, hp, Nat.mul_div_cancel _ (by omega)]
    unfold CoalesceExec.execute
    rw [if_neg (by omega)]
    simp only [hppt]
    rw [if_neg (by omega)]
    have hle := taskGroup_len_le n ctx.count ctx.index
    have hlt := (taskGroup_len_le n ctx.count ctx.index)
    split
    · exact ⟨[], rfl, fun _ h => by cases h⟩
    · rename_i hoff
      rw [if_neg (by omega)]
      refine ⟨_, rfl, fun pull hpull => ?_⟩
      simp only [List.mem_singleton] at hpull
      subst hpull
      refine ⟨?_, fun _ _ _ _ => Nat.mod_lt _ hpos⟩
      have := taskGroup_end_le n ctx.count ctx.index (by omega)
      change _ < n
      dsimp only
      omega
  · refine ⟨_, rfl, fun pull hp => ?_⟩
    obtain ⟨j, hj, rfl⟩ := List.mem_map.mp hp
    exact ⟨List.mem_range.mp hj, by rintro _ _ _ ⟨⟩⟩

theorem sends_agree {k : Kind Row} {count : Nat} {r r' : Ran Row} {pull : Pull} {l : List Row}
    (h : Agree true ⟨pull.task, k.tasks⟩ r r') (hc : ∀ p n num, k = .netCoalesce p n num → pull.partition < r.parts)
    (hb : ∀ p n num, k = .netBroadcast p n num → 0 < r.parts) (hs : Sends k count r pull l) : Sends k count r' pull l := by
  cases k <;> first | exact hs.elim | skip
  · rename_i hh p n num
    change Interleaved ((List.range r'.parts).map fun i => hashPart hh _ pull.partition (r'.exec true ⟨pull.task, n⟩ i)) l
    rw [Agree.range (ctx := ⟨pull.task, n⟩) h (hashPart hh (FanExec.headPartitions ⟨p, n⟩ count) pull.partition)]
    exact hs
  · rename_i p n num
    change l = r'.exec true ⟨pull.task, n⟩ pull.partition
    have h2 : ∀ q < r.parts, r'.exec true ⟨pull.task, n⟩ q = r.exec true ⟨pull.task, n⟩ q := h.2
    rw [h2 _ (hc p n num rfl)]
    exact hs
  · rename_i p n num
    change l = r'.exec true ⟨pull.task, n⟩ (pull.partition % r'.parts)
    have h2 : ∀ q < r.parts, r'.exec true ⟨pull.task, n⟩ q = r.exec true ⟨pull.task, n⟩ q := h.2
    rw [h.1, h2 _ (Nat.mod_lt _ (hb p n num rfl))]
    exact hs

/-- What the tasks of the input stage send, stream by stream. -/
theorem contents {k : Kind Row} {runs : List (Nat × TaskCtx)} (hk : k.isNet = true) (hs : Single runs) {rs : List (Ran Row × Ran Row)} {w : Bool}
    {r : Ran Row} (he : ∀ ctx q, Emits k rs w ctx q (r.exec w ctx q)) :
    ∃ L : Stream → List Row, ∀ x ∈ runs, ∀ q < k.netParts, ∀ pulls, requests k x.2 q = .ok pulls →
      (∀ pull ∈ pulls, Sends k x.2.count (rs.getD 0 (.none, .none)).2 pull (L ⟨pull.task, x.1, pull.partition⟩))
      ∧ Interleaved (pulls.map fun pull => L ⟨pull.task, x.1, pull.partition⟩) (r.exec w x.2 q) := by
  generalize hbare : (rs.getD 0 (.none, .none)).2 = bare
  cases k <;> try cases hk
  · rename_i hh p n num
    have hsplit : ∀ ctx q, ∃ ms : List (List Row), ms.length = n
        ∧ (∀ (i : Nat) y, i < n → ms[i]? = some y → Interleaved ((List.range bare.parts).map fun j =>
            hashPart hh (FanExec.headPartitions ⟨p, n⟩ ctx.count) (p * ctx.index + q) (bare.exec true ⟨i, n⟩ j)) y)
        ∧ Interleaved ms (r.exec w ctx q) := by
      intro ctx q
      have h := he ctx q
      change Interleaved (((FanExec.mk p n).execute ctx q).flatMap fun pull => _) _ at h
      rw [hbare] at h
      rw [List.flatMap_def] at h
      obtain ⟨ms, h1, h2, h3⟩ := Interleaved.split h _ rfl
      have hlen : ((FanExec.mk p n).execute ctx q).length = n := by simp [FanExec.execute]
      rw [List.length_map, hlen] at h1
      refine ⟨ms, h1, fun i y hi hy => h2 i _ y ?_ hy, h3⟩
      rw [List.getElem?_map]
      unfold FanExec.execute
      dsimp only
      rw [List.getElem?_map, List.getElem?_range hi]
      rfl
    choose ms h1 h2 h3 using hsplit
    classical
    refine ⟨fun d => if h : ∃ c, (d.reader, c) ∈ runs then (ms h.choose (d.partition % p)).getD d.writer [] else [], ?_⟩
    intro x hx q hq pulls hp
    cases hp
    change q < p at hq
    have hex : ∃ c, (x.1, c) ∈ runs := ⟨x.2, hx⟩
    have hch : hex.choose = x.2 := hs x.1 _ _ hex.choose_spec hx
    have hL : ∀ i, i < n → (if h : ∃ c, (x.1, c) ∈ runs then (ms h.choose ((p * x.2.index + q) % p)).getD i [] else [])
        = (ms x.2 q).getD i [] := by
      intro i _
      rw [dif_pos hex, hch, Nat.mul_add_mod, Nat.mod_eq_of_lt hq]
    constructor
    · intro pull hpull
      obtain ⟨j, hj, rfl⟩ := List.mem_map.mp hpull
      have hj := List.mem_range.mp hj
      change Interleaved _ (if h : ∃ c, (x.1, c) ∈ runs then (ms h.choose ((p * x.2.index + q) % p)).getD j [] else [])
      rw [hL j hj]
      refine h2 x.2 q j _ hj ?_
      rw [List.getD_eq_getElem?_getD, List.getElem?_eq_getElem (by rw [h1]; exact hj)]
      rfl
    · have : ((FanExec.mk p n).execute x.2 q).map (fun pull => (if h : ∃ c, (x.1, c) ∈ runs then
          (ms h.choose (pull.partition % p)).getD pull.task [] else [])) = ms x.2 q := by
        refine List.ext_getElem (by simp [FanExec.execute, h1]) fun i hi hi' => ?_
        have hin : i < n := by rw [h1] at hi'; exact hi'
        simp only [FanExec.execute, List.getElem_map, List.getElem_range]
        rw [hL i hin, List.getD_eq_getElem?_getD, List.getElem?_eq_getElem hi']
        rfl
      change Interleaved (((FanExec.mk p n).execute x.2 q).map _) _
      rw [this]
      exact h3 x.2 q
  · rename_i p n num
    refine ⟨fun d => bare.exec true ⟨d.writer, n⟩ d.partition, fun x _ q _ pulls hp => ⟨fun pull _ => rfl, ?_⟩⟩
    have h : r.exec w x.2 q = netCoalesceExec p n (rs.getD 0 (.none, .none)).2 x.2 q := he x.2 q
    rw [hbare] at h
    rw [h]
    unfold netCoalesceExec
    change (CoalesceExec.mk p n).execute x.2 q = .ok pulls at hp
    rw [hp]
    cases pulls with
    | nil => exact .done (by simp)
    | cons pull rest =>
      rw [coalesce_one hp]
      simp only [List.map_cons, List.map_nil, List.flatMap_cons, List.flatMap_nil, List.append_nil]
      generalize bare.exec true ⟨pull.task, n⟩ pull.partition = y
      induction y with
      | nil => exact .done (by simp)
      | cons a y ih => exact .step (i := 0) (t := y) rfl (fun _ _ _ _ => True.intro) ih
  · rename_i p n num
    refine ⟨fun d => bare.exec true ⟨d.writer, n⟩ (d.partition % bare.parts), fun x _ q _ pulls hp => ⟨fun pull _ => rfl, ?_⟩⟩
    cases hp
    have h := he x.2 q
    change Interleaved (((FanExec.mk p n).execute x.2 q).map fun pull => _) _ at h
    rw [hbare] at h
    exact h

/-! ### Whole plans -/

/-- The stream was read to its end and `L` says what was in it. -/
structure Final (rows : α → Except Err (List Row)) (L : Nat → Stream → List Row) (st : State Nat α σ) (s : Nat) (d : Stream) : Prop where
  got : (st.got s d).map rows = (L s d).map fun x => .ok [x]
  made : (st.made s d).map rows = (L s d).map fun x => .ok [x]
  eof : st.eof s d = true
  done : st.done s d = true
  gone : st.gone s d = false
  failed : st.failed s d.reader d.writer = false

variable {rows : α → Except Err (List Row)}

theorem Final.seen {L : Nat → Stream → List Row} {st : State Nat α σ} {s : Nat} {d : Stream} (h : Final rows L st s d) :
    seenOf rows st s d = quiet (L s d) := by
  unfold seenOf quiet
  rw [h.got, h.eof, h.gone]; rfl

theorem Final.sent {L : Nat → Stream → List Row} {st : State Nat α σ} {s : Nat} {d : Stream} (h : Final rows L st s d) :
    sentOf rows st s d = quiet (L s d) := by
  unfold sentOf quiet
  rw [h.made, h.done, h.gone, h.failed]; rfl

theorem Final.congr {L L' : Nat → Stream → List Row} {st : State Nat α σ} {s : Nat} {d : Stream} (h : Final rows L st s d)
    (e : L s d = L' s d) : Final rows L' st s d := ⟨e ▸ h.got, e ▸ h.made, h.eof, h.done, h.gone, h.failed⟩

theorem strip_parts {c : Plan Row} {r : Ran Row × Ran Row} (h : Runs c r) (hh : c.kind.isHead = true → c.children.length = 1) :
    r.2.parts = (strip c).parts := by
  cases c with
  | node k tc cs =>
    have hp := runs_parts h
    obtain ⟨rs, ⟨hl, hr⟩, _, _, h2⟩ := runs_node.mp h
    rw [h2]
    cases hk : k.isHead with
    | false =>
      rcases strip_cases (.node k tc cs) with e | ⟨hk', _⟩
      · rw [e]; exact hp
      · change k.isHead = true at hk'; rw [hk] at hk'; cases hk'
    | true =>
      rw [if_pos rfl]
      have hlen := hh hk
      change cs.length = 1 at hlen
      match cs, rs, hlen, hl, hr with
      | [c], [r], _, _, hr =>
        have := runs_parts (hr 0 c r rfl rfl)
        rw [strip, if_pos hk]
        exact this

theorem inside_of {T : Nat} {k : Kind Row} {tc : TaskCount} {cs : List (Plan Row)} (hw : NodeWithin T (.node k tc cs))
    {rs : List (Ran Row × Ran Row)} (hl : rs.length = cs.length)
    (hr : ∀ (i : Nat) c r, cs[i]? = some c → rs[i]? = some r → Runs c r) : Inside k rs := by
  cases k with
  | op g red =>
    have hall : ∀ r ∈ rs, r.1.parts = (Plan.node (.op g red) tc cs).parts := by
      intro r hrm
      obtain ⟨i, hi⟩ := List.mem_iff_getElem?.mp hrm
      have hlt := (List.getElem?_eq_some_iff.mp hi).1
      have hc := List.getElem?_eq_getElem (l := cs) (show i < cs.length by omega)
      rw [runs_parts (hr i _ r hc hi)]
      exact hw _ (List.mem_of_getElem? hc)
    intro r hrm
    cases rs with
    | nil => cases hrm
    | cons r0 rs =>
      change r.1.parts = r0.1.parts
      rw [hall r hrm, hall r0 (by simp)]
  | join m s =>
    obtain ⟨b, p, e, h1, h2, h3⟩ := hw
    change cs = [b, p] at e
    subst e
    match rs, hl, hr with
    | [rb, rp], _, hr =>
      have e1 := runs_parts (hr 0 b rb rfl rfl)
      have e2 := runs_parts (hr 1 p rp rfl rfl)
      refine ⟨?_, fun hm => ?_⟩
      · change 0 < rb.1.parts; rw [e1]; exact h2
      · change rb.1.parts = rp.1.parts; rw [e1, e2, h1, h3 hm]
  | _ => exact True.intro

/-- Streams of a plan can carry what every execution of it needs, and what is seen of it then is that execution. -/
theorem observed_exists {one : Bool} : ∀ {p : Plan Row} (above next : Nat) {runs : List (Nat × TaskCtx)} {o} {T : Nat} {r : Ran Row × Ran Row} (w : Bool),
    Ordered one p o → Wired T p → Within T p → Exact T runs → Single runs → Runs p r →
    ∃ L : Nat → Stream → List Row, ∀ st : State Nat α σ,
      (∀ (j : Nat) x, (sites above next runs p)[j]? = some x → ∀ d ∈ x.streams, Final rows L st (next + j) d) →
      ∃ a, Observed rows st above next runs p a ∧ Shown w runs a.1 r.1 ∧ Shown w runs a.2 r.2
  | .node k tc cs, above, next, runs, o, T, r, w, hord, hwired, hwithin, hex, hsi, hrun => by
    obtain ⟨ord, hord1, hreads, _⟩ := hord.inv
    have hall : ∀ (l : List (Plan Row)) (above next : Nat) (runs : Nat → List (Nat × TaskCtx)) (Ts : Nat → Nat) (rs : List (Ran Row × Ran Row)) (w : Bool),
        (∀ c ∈ l, c ∈ cs ∧ ∃ o, Ordered one c o) →
        (∀ (i : Nat) c, l[i]? = some c → Wired (Ts i) c ∧ Within (Ts i) c ∧ Exact (Ts i) (runs i) ∧ Single (runs i)) →
        (rs.length = l.length ∧ ∀ (i : Nat) c r, l[i]? = some c → rs[i]? = some r → Runs c r) →
        ∃ L : Nat → Stream → List Row, ∀ st : State Nat α σ,
          (∀ (j : Nat) x, (sitesAll above next runs l)[j]? = some x → ∀ d ∈ x.streams, Final rows L st (next + j) d) →
          ∃ as, ObservedAll rows st above next runs l as ∧ as.length = rs.length
            ∧ ∀ (i : Nat) a r, as[i]? = some a → rs[i]? = some r → Shown w (runs i) a.1 r.1 ∧ Shown w (runs i) a.2 r.2 := by
      intro l
      induction l with
      | nil =>
        intro _ _ _ _ rs _ _ _ hr
        refine ⟨fun _ _ => [], fun st _ => ⟨[], by rw [ObservedAll], by rw [hr.1]; rfl, by simp⟩⟩
      | cons c l ih =>
        intro above next runs Ts rs w hsub hgood hr
        obtain ⟨hl, hr⟩ := hr
        cases rs with
        | nil => simp at hl
        | cons r0 rs =>
          have : sizeOf c < sizeOf cs := List.sizeOf_lt_of_mem (hsub c (by simp)).1
          obtain ⟨oc, hoc⟩ := (hsub c (by simp)).2
          obtain ⟨g1, g2, g3, g4⟩ := hgood 0 c rfl
          obtain ⟨L1, h1⟩ := observed_exists above next w hoc g1 g2 g3 g4 (hr 0 c r0 rfl rfl)
          obtain ⟨L2, h2⟩ := ih above (next + (sites above next (runs 0) c).length) (fun i => runs (i + 1)) (fun i => Ts (i + 1)) rs w
            (fun c hc => hsub c (List.mem_cons_of_mem _ hc)) (fun i c hc => hgood (i + 1) c hc)
            ⟨by simpa using hl, fun i c r hc hr' => hr (i + 1) c r hc hr'⟩
          refine ⟨fun s d => if s < next + (sites above next (runs 0) c).length then L1 s d else L2 s d, fun st hst => ?_⟩
          rw [sitesAll] at hst
          obtain ⟨a, ha, hs⟩ := h1 st fun j x hx d hd => by
            have hlt := (List.getElem?_eq_some_iff.mp hx).1
            refine (hst j x (by rw [List.getElem?_append_left hlt]; exact hx) d hd).congr ?_
            rw [if_pos (by omega)]
          obtain ⟨as, has, hlen, hss⟩ := h2 st fun j x hx d hd => by
            have := hst ((sites above next (runs 0) c).length + j) x (by
              rw [List.getElem?_append_right (by omega), Nat.add_sub_cancel_left]; exact hx) d hd
            rw [← Nat.add_assoc] at this
            refine this.congr ?_
            rw [if_neg (by omega)]
          refine ⟨a :: as, by rw [ObservedAll]; exact ⟨a, as, rfl, ha, has⟩, by simp [hlen], ?_⟩
          intro i a' r' ha' hr'
          cases i with
          | zero => cases ha'; cases hr'; exact hs
          | succ i => exact hss i a' r' ha' hr'
    have hkids : ∀ c ∈ cs, c ∈ cs ∧ ∃ o, Ordered one c o := by
      intro c hc
      obtain ⟨i, hi⟩ := List.mem_iff_getElem?.mp hc
      exact ⟨hc, _, hord1 i c hi⟩
    have hnode := hwithin T _ .root
    have hok := hwired T _ .root
    have hparts := runs_parts hrun
    obtain ⟨rs, ⟨hl, hr⟩, hrp, he, hr2⟩ := runs_node.mp hrun
    cases hk : k.isNet with
    | true =>
      have hcc : ∀ i, childCount k T i = k.tasks := by intro i; cases k <;> first | rfl | cases hk
      have hone : ∃ c, cs = [c] := by
        cases k <;> try cases hk
        · exact hnode
        · obtain ⟨c, e, _⟩ := hnode; exact ⟨c, e⟩
        · obtain ⟨c, e, _⟩ := hnode; exact ⟨c, e⟩
      obtain ⟨c, rfl⟩ := hone
      match rs, hl, hr with
      | [rc], hl, hr => ?_
      obtain ⟨L1, h1⟩ := hall [c] next (next + 1) (fun _ => stageTasks k.tasks) (fun _ => k.tasks) [rc] true hkids
        (fun i c' hc => ⟨hcc i ▸ hwired.child hc, hcc i ▸ hwithin.child hc, exact_stageTasks _, single_stageTasks _⟩) ⟨hl, hr⟩
      obtain ⟨L0, h0⟩ := contents (w := w) (r := r.1) hk hsi (he w)
      refine ⟨fun s d => if s = next then L0 d else L1 s d, fun st hst => ?_⟩
      rw [sites, if_pos hk] at hst
      obtain ⟨as, has, hlen, hshown⟩ := h1 st fun j x hx d hd => by
        have := hst (j + 1) x hx d hd
        rw [show next + (j + 1) = next + 1 + j by omega] at this
        refine this.congr ?_
        rw [if_neg (by omega)]
      have hstream : ∀ x ∈ runs, ∀ q < k.netParts, ∀ pulls, requests k x.2 q = .ok pulls → ∀ pull ∈ pulls,
          Final rows (fun s d => if s = next then L0 d else L1 s d) st next ⟨pull.task, x.1, pull.partition⟩ := by
        intro x hx q hq pulls hp pull hpull
        refine hst 0 _ rfl _ ?_
        unfold Site.streams
        refine List.mem_flatMap.mpr ⟨x, hx, List.mem_flatMap.mpr ⟨q, List.mem_range.mpr hq, ?_⟩⟩
        simp only [hp]
        exact List.mem_map.mpr ⟨pull, hpull, rfl⟩
      have hnp : r.1.parts = k.netParts := by
        rw [hrp]
        cases k <;> first | rfl | cases hk
      classical
      let a : Att Row := ⟨k.netParts, fun w' ctx q =>
        if w' = w ∧ (∃ t, (t, ctx) ∈ runs) ∧ q < k.netParts then quiet (r.1.exec w ctx q) else ⟨[], false⟩⟩
      have hsa : Shown w runs a r.1 := by
        refine ⟨hnp.symm, fun x hx q hq => ?_⟩
        change (if w = w ∧ (∃ t, (t, x.2) ∈ runs) ∧ q < k.netParts then quiet (r.1.exec w x.2 q) else ⟨[], false⟩) = _
        rw [if_pos ⟨rfl, ⟨x.1, hx⟩, hnp ▸ hq⟩]
      have hhead : k.isHead = false := by cases k <;> first | rfl | cases hk
      refine ⟨(a, a), ?_, hsa, by rw [hr2, hhead]; exact hsa⟩
      rw [Observed, if_pos hk]
      refine ⟨as, has, rfl, fun w' ctx q => ?_, ?_, rfl⟩
      · change Pulled _ _ _ _ _ _ _ (if w' = w ∧ (∃ t, (t, ctx) ∈ runs) ∧ q < k.netParts then quiet (r.1.exec w ctx q) else ⟨[], false⟩)
        split
        · rename_i h
          obtain ⟨rfl, ⟨t, ht⟩, hq⟩ := h
          obtain ⟨pulls, hp, _⟩ := requests_ok hk hnode (hex _ ht) q
          refine Or.inr ⟨t, pulls, ht, hq, hp, ?_⟩
          have hi := (h0 (t, ctx) ht q hq pulls hp).2
          have := selected_quiet hi
          rw [List.map_map] at this
          refine Eq.mp (congrArg (fun l => Selected l _) ?_) this
          refine List.map_congr_left fun pull hpull => ?_
          rw [(hstream (t, ctx) ht q hq pulls hp pull hpull).seen, if_pos rfl]
          rfl
        · exact Or.inl rfl
      · intro t ctx q pulls pull ht hq hp hpull r' hr'
        obtain ⟨pulls', hp', hpull'⟩ := requests_ok hk hnode (hex _ ht) q
        rw [hp] at hp'
        cases hp'
        obtain ⟨hlt, hpart⟩ := hpull' pull hpull
        match as, hlen, hshown, hr' with
        | [a1], _, hshown, hr' =>
          have hs2 := (hshown 0 a1 rc rfl rfl).2
          have hag := hs2.agree hr' (x := (pull.task, ⟨pull.task, k.tasks⟩)) (List.mem_map.mpr ⟨_, List.mem_range.mpr hlt, rfl⟩)
          have hbare : (c.kind.isHead = true → c.children.length = 1) := by
            have hwc := (hwithin.child (i := 0) rfl) _ _ .root
            cases c with
            | node k' tc' cs' =>
              intro hh
              cases k' <;> first | (obtain ⟨y, e⟩ := hwc; rw [e]; rfl) | cases hh
          have hsp := strip_parts (hr 0 c rc rfl rfl) hbare
          refine ⟨_, sends_agree hag (fun p n num e => by rw [hsp]; exact hpart p n num e) (fun p n num e => ?_)
            ((h0 (t, ctx) ht q hq pulls hp).1 pull hpull), ?_⟩
          · subst e
            obtain ⟨c', e, h⟩ := hnode
            cases e
            rw [hsp]; exact h
          · rw [(hstream (t, ctx) ht q hq pulls hp pull hpull).sent, if_pos rfl]
            exact of_quiet _
    | false =>
      obtain ⟨L, h1⟩ := hall cs above next (runsBelow k runs) (childCount k T) rs w hkids
        (fun i c hc => ⟨hwired.child hc, hwithin.child hc, hex.below hok hk (List.getElem?_eq_some_iff.mp hc).1, hsi.below k i⟩) ⟨hl, hr⟩
      refine ⟨L, fun st hst => ?_⟩
      rw [sites, if_neg (by simp [hk])] at hst
      obtain ⟨as, has, hlen, hshown⟩ := h1 st hst
      classical
      choose other hother using fun w ctx q => shows_some hk hreads as w ctx q
      let a : Att Row := ⟨(Plan.node k tc cs).parts, fun w' ctx q =>
        if w' = w ∧ (∃ t, (t, ctx) ∈ runs) ∧ q < (Plan.node k tc cs).parts then quiet (r.1.exec w ctx q) else other w' ctx q⟩
      have hsa : Shown w runs a r.1 := by
        refine ⟨hparts.symm, fun x hx q hq => ?_⟩
        change (if w = w ∧ (∃ t, (t, x.2) ∈ runs) ∧ q < (Plan.node k tc cs).parts then quiet (r.1.exec w x.2 q) else _) = _
        rw [if_pos ⟨rfl, ⟨x.1, hx⟩, hparts ▸ hq⟩]
      refine ⟨(a, if k.isHead then (as.getD 0 (.none, .none)).1 else a), ?_, hsa, ?_⟩
      · rw [Observed, if_neg (by simp [hk])]
        refine ⟨as, has, rfl, fun w' ctx q => ?_, rfl⟩
        change Shows false k as w' ctx q (if w' = w ∧ (∃ t, (t, ctx) ∈ runs) ∧ q < (Plan.node k tc cs).parts then
          quiet (r.1.exec w ctx q) else other w' ctx q)
        split
        · rename_i h
          obtain ⟨rfl, ⟨t, ht⟩, hq⟩ := h
          exact shows_quiet (x := (t, ctx)) hk hok hlen (fun i a r ha hr => (hshown i a r ha hr).1) (inside_of hnode hl hr) ht
            (hex _ ht).1 (by rw [← hrp, hparts]; exact hq) (he _ _ _)
        · exact hother w' ctx q
      · rw [hr2]
        cases hh : k.isHead with
        | false => exact hsa
        | true =>
          dsimp only [if_true]
          have hone : ∃ c, cs = [c] := by
            cases k <;> first | exact hnode | cases hh
          obtain ⟨c, rfl⟩ := hone
          match as, rs, hlen, hl, hshown with
          | [a1], [r1], _, _, hshown =>
            have := (hshown 0 a1 r1 rfl rfl).1
            have hci : ∀ ws m, k ≠ .ciu ws m := by rintro ws m rfl; cases hh
            refine ⟨this.1, fun x hx q hq => this.2 x ?_ q hq⟩
            exact List.mem_filterMap.mpr ⟨x, hx, by rw [childCtx_other hci]; rfl⟩
termination_by p => sizeOf p

end DD.Net
