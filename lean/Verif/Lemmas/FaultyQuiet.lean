/-
If nothing fails, everything a plan may return may be seen.
-/
import Verif.Lemmas.Faulty

namespace DD.Faulty

open DD.Limit DD.Tree

variable {Row : Type}

/-- A stream that was read to its end, one row after the other, without an error. -/
def quiet (l : List Row) : Seen Row := ⟨l.map fun x => .ok [x], true⟩

theorem quiet_rows (l : List Row) : (quiet l).rows = l := by
  change rowsOf (l.map fun x => .ok [x]) = l
  induction l with
  | nil => rfl
  | cons x l ih => rw [List.map_cons, rowsOf, ih]; rfl

theorem quiet_clean (l : List Row) : (quiet l).Clean := by
  refine ⟨rfl, fun e he => ?_⟩
  obtain ⟨_, _, h⟩ := List.mem_map.mp he
  cases h

theorem quiet_of {l m : List Row} (h : (quiet l).Of m) : m = l := by
  have := h.2 (quiet_clean l)
  rw [quiet_rows] at this
  exact this.symm

theorem of_quiet (l : List Row) : (quiet l).Of l := by
  refine ⟨?_, fun _ => quiet_rows l⟩
  rw [quiet_rows]; exact List.prefix_rfl

theorem passed_refl (s : Seen Row) : Passed s s := ⟨List.prefix_rfl, fun h => ⟨h, rfl⟩⟩

theorem replayed_quiet (panics : Bool) (l : List Row) : Replayed panics (quiet l) (quiet l) := by
  have hp : pushed (quiet l).items = (quiet l).items := by
    change pushed (l.map fun x => .ok [x]) = l.map fun x => .ok [x]
    induction l with
    | nil => rfl
    | cons x l ih => rw [List.map_cons, pushed, ih]
  have hn : BQ.Step.crash ∉ List.replicate (2 * (quiet l).items.length + 1) BQ.Step.prod := by
    intro h; have := List.eq_of_mem_replicate h; cases this
  obtain ⟨k, h1, h2⟩ := BQ.C28_keeps_polling_gets_everything (quiet l).items _ hn (BQ.C28_producer_finishes _) 0
  refine .inr ⟨List.replicate (2 * (quiet l).items.length + 1) .prod ++ List.replicate k (.cons 0), 0, ?_, fun _ => .inl rfl, ?_⟩
  · intro _ h
    rcases List.mem_append.mp h with h | h
    · exact hn h
    · have := List.eq_of_mem_replicate h; cases this
  · rw [hp, h1, h2]; rfl

/-! ### Interleavings -/

theorem Interleaved.map {α β : Type} (f : α → β) {ls : List (List α)} {l : List α} (h : Interleaved ls l) :
    Interleaved (ls.map (·.map f)) (l.map f) := by
  unfold Interleaved at h
  induction h with
  | done h =>
    refine .done fun l hl => ?_
    obtain ⟨x, hx, rfl⟩ := List.mem_map.mp hl
    rw [h x hx]; rfl
  | @step ls i x t l hi _ _ ih =>
    refine .step (i := i) (t := t.map f) (by rw [List.getElem?_map, hi]; rfl) (fun _ _ _ _ => True.intro) ?_
    rw [List.map_set] at ih
    exact ih

theorem flatten_get {α : Type} : ∀ {lss : List (List α)} {k : Nat} {x : α} (y : α), lss.flatten[k]? = some x →
    ∃ (i j : Nat) (xs : List α), lss[i]? = some xs ∧ xs[j]? = some x ∧ lss.flatten.set k y = (lss.set i (xs.set j y)).flatten
  | [], k, x, y, h => by simp at h
  | xs :: lss, k, x, y, h => by
    rw [List.flatten_cons] at h
    by_cases hk : k < xs.length
    · rw [List.getElem?_append_left hk] at h
      refine ⟨0, k, xs, rfl, h, ?_⟩
      rw [List.flatten_cons, List.set_append_left _ _ hk]; rfl
    · rw [List.getElem?_append_right (by omega)] at h
      obtain ⟨i, j, zs, h1, h2, h3⟩ := flatten_get y h
      refine ⟨i + 1, j, zs, h1, h2, ?_⟩
      rw [List.flatten_cons, List.set_append_right _ _ (by omega), h3]; rfl

/-- Streams read at the same time can be read group by group. -/
theorem Interleaved.split {L : List (List Row)} {l : List Row} (h : Interleaved L l) : ∀ lss : List (List (List Row)), L = lss.flatten →
    ∃ ms : List (List Row), ms.length = lss.length ∧ (∀ (i : Nat) x y, lss[i]? = some x → ms[i]? = some y → Interleaved x y)
      ∧ Interleaved ms l := by
  unfold Interleaved at h
  induction h with
  | @done L h =>
    rintro lss rfl
    refine ⟨lss.map fun _ => [], by simp, fun i x y hx hy => ?_, .done fun l hl => ?_⟩
    · rw [List.getElem?_map, hx] at hy
      cases hy
      exact .done fun z hz => h z (List.mem_flatten.mpr ⟨x, List.mem_of_getElem? hx, hz⟩)
    · obtain ⟨_, _, rfl⟩ := List.mem_map.mp hl; rfl
  | @step L k x t l hk _ _ ih =>
    rintro lss rfl
    obtain ⟨i, j, xs, h1, h2, h3⟩ := flatten_get t hk
    obtain ⟨ms, h4, h5, h6⟩ := ih _ h3
    have hi : i < lss.length := (List.getElem?_eq_some_iff.mp h1).1
    rw [List.length_set] at h4
    have hm := List.getElem?_eq_getElem (show i < ms.length by omega)
    refine ⟨ms.set i (x :: ms[i]), by simpa using h4, fun i' x' y' hx' hy' => ?_, ?_⟩
    · by_cases e : i = i'
      · subst e
        rw [List.getElem?_set_self (by omega)] at hy'
        rw [h1] at hx'
        cases hx'; cases hy'
        refine .step h2 (fun _ _ _ _ => True.intro) (h5 i _ _ (by rw [List.getElem?_set_self hi]) hm)
      · rw [List.getElem?_set_ne e] at hy'
        exact h5 i' x' y' (by rw [List.getElem?_set_ne e]; exact hx') hy'
    · refine .step (i := i) (t := ms[i]) (by rw [List.getElem?_set_self (by omega)]) (fun _ _ _ _ => True.intro) ?_
      rw [List.set_set, List.set_getElem_self]
      exact h6

theorem selected_quiet {ls : List (List Row)} {l : List Row} (h : Interleaved ls l) : Selected (ls.map quiet) (quiet l) := by
  refine ⟨ls.map (·.map fun x => .ok [x]), by simp, fun i p s hp hs => ?_, Interleaved.map _ h⟩
  rw [List.getElem?_map] at hp hs
  obtain ⟨x, hx, rfl⟩ := Option.map_eq_some_iff.mp hp
  rw [hx] at hs
  cases hs
  exact ⟨List.prefix_rfl, fun _ => ⟨rfl, rfl⟩⟩

/-! ### Plans -/

def quietAtt (r : Ran Row) : Att Row := ⟨r.parts, fun w ctx q => quiet (r.exec w ctx q)⟩

def quietBoth (r : Ran Row × Ran Row) : Att Row × Att Row := (quietAtt r.1, quietAtt r.2)

theorem quietAtt_continues {r r' : Ran Row} (h : (quietAtt r).Continues r') : r' = r := by
  obtain ⟨h1, h2⟩ := h
  have : r'.exec = r.exec := by funext w ctx q; exact quiet_of (h2 w ctx q)
  cases r; cases r'
  cases h1; cases this; rfl

theorem goes_quiet {rs rs' : List (Ran Row × Ran Row)} (h : Goes (rs.map quietBoth) rs') : rs' = rs := by
  obtain ⟨h1, h2⟩ := h
  rw [List.length_map] at h1
  refine List.ext_getElem h1 fun i hi hi' => ?_
  obtain ⟨h3, h4⟩ := h2 i (quietBoth rs[i]) rs'[i] (by rw [List.getElem?_map, List.getElem?_eq_getElem hi']; rfl)
    (List.getElem?_eq_getElem hi)
  exact Prod.ext (quietAtt_continues h3) (quietAtt_continues h4)

theorem getD_quiet (rs : List (Ran Row × Ran Row)) (i : Nat) :
    (rs.map quietBoth).getD i (.none, .none) = quietBoth (rs.getD i (.none, .none)) := by
  rw [List.getD_eq_getElem?_getD, List.getD_eq_getElem?_getD, List.getElem?_map]
  cases rs[i]? <;> rfl

/-- A partition of a coalescing boundary is one partition of one producer task. -/
theorem coalesce_one {p n q : Nat} {ctx : TaskCtx} {pull : Pull} {rest} (h : (CoalesceExec.mk p n).execute ctx q = .ok (pull :: rest)) :
    rest = [] := by
  unfold CoalesceExec.execute at h
  split at h
  · cases h
  · dsimp only at h
    split at h
    · cases h
    · split at h
      · cases h
      · split at h <;> cases h
        rfl

theorem emits_shows (panics : Bool) {k : Kind Row} {rs : List (Ran Row × Ran Row)} {w ctx q l} (h : Emits k rs w ctx q l) :
    Shows panics k (rs.map quietBoth) w ctx q (quiet l) := by
  have hdf : ∀ rs', Goes (rs.map quietBoth) rs' → Fits k rs' w ctx q → ∃ l', Emits k rs' w ctx q l' ∧ (quiet l).Of l' := by
    intro rs' hg _
    rw [goes_quiet hg]
    exact ⟨l, h, of_quiet l⟩
  have hg : ∀ i, (rs.map quietBoth).getD i (.none, .none) = quietBoth (rs.getD i (.none, .none)) := getD_quiet rs
  cases k with
  | ciu ws m =>
    have hps : (rs.map quietBoth).map (·.1.parts) = rs.map (·.1.parts) := by rw [List.map_map]; rfl
    unfold Shows
    dsimp only
    rw [hps]
    have h' : l = ciuExec w (rs.map (·.1)) (m.getD ctx.index []) q := h
    subst h'
    unfold ciuExec
    rw [List.map_map]
    change match Union.execIn (rs.map fun r => r.1.parts) (m.getD ctx.index []) q with | .ok (some r) => _ | .ok none => _ | .error e => _
    have e0 : rs.map ((fun x : Ran Row => x.parts) ∘ fun x : Ran Row × Ran Row => x.1) = rs.map fun r => r.1.parts := rfl
    rw [e0]
    cases he : Union.execIn (rs.map fun r => r.1.parts) (m.getD ctx.index []) q with
    | error e => exact .inr rfl
    | ok o =>
      cases o with
      | none => exact passed_refl _
      | some r =>
        change Passed _ (quiet (((rs.map (·.1)).getD r.child ((Ran.none, Ran.none) : Ran Row × Ran Row).1).exec w r.ctx r.partition))
        rw [getD_map rs (·.1) r.child (.none, .none), hg]
        exact passed_refl _
  | broadcast n =>
    have h' : l = (rs.getD 0 (.none, .none)).1.exec w ctx (q % (rs.getD 0 (.none, .none)).1.parts) := h
    subst h'
    simp only [Shows]
    rw [hg]
    exact replayed_quiet panics _
  | shuffle hh p n st =>
    simp only [Shows]
    rw [hg]
    have h' : Interleaved (((FanExec.mk p n).execute ctx q).map fun pull => (List.range (rs.getD 0 (.none, .none)).2.parts).map fun i =>
        hashPart hh (FanExec.headPartitions ⟨p, n⟩ ctx.count) pull.partition ((rs.getD 0 (.none, .none)).2.exec true ⟨pull.task, n⟩ i)).flatten l := by
      rw [← List.flatMap_def]; exact h
    clear h hdf hg
    generalize rs.getD 0 (.none, .none) = both at h' ⊢
    obtain ⟨_, bare⟩ := both
    replace h' : Interleaved (((FanExec.mk p n).execute ctx q).map fun pull => (List.range bare.parts).map fun i =>
        hashPart hh (FanExec.headPartitions ⟨p, n⟩ ctx.count) pull.partition (bare.exec true ⟨pull.task, n⟩ i)).flatten l := h'
    obtain ⟨ms, h1, h2, h3⟩ := Interleaved.split h' _ rfl
    have hex : ∀ t v, ∃ x, Interleaved ((List.range bare.parts).map fun i =>
        hashPart hh (FanExec.headPartitions ⟨p, n⟩ ctx.count) v (bare.exec true ⟨t, n⟩ i)) x := fun t v => Interleaved.exists _
    choose other hother using hex
    rw [List.length_map] at h1
    have hlen : ((FanExec.mk p n).execute ctx q).length = n := by simp [FanExec.execute]
    refine ⟨fun t v => quiet (if v = p * ctx.index + q then ms.getD t (other t v) else other t v), ms.map quiet, ?_, ?_, selected_quiet h3⟩
    · intro t v r hr
      rw [quietAtt_continues hr]
      refine ⟨_, ?_, of_quiet _⟩
      split
      · rename_i hv
        by_cases ht : t < ms.length
        · have e1 := List.getElem?_eq_getElem ht
          rw [List.getD_eq_getElem?_getD, e1]
          refine h2 t _ _ ?_ e1
          rw [List.getElem?_map]
          unfold FanExec.execute
          dsimp only
          rw [List.getElem?_map, List.getElem?_range (by omega)]
          simp [hv]
        · rw [List.getD_eq_getElem?_getD, List.getElem?_eq_none (by omega)]
          exact hother t v
      · exact hother t v
    · refine List.forall₂_iff_get.mpr ⟨by simp [h1], fun i hi hi' => ?_⟩
      refine .inProcess ?_
      have hi2 : i < ms.length := by simpa using hi'
      simp only [FanExec.execute, List.get_eq_getElem, List.getElem_map, List.getElem_range, if_true]
      rw [List.getD_eq_getElem?_getD, List.getElem?_eq_getElem hi2]
      exact passed_refl _
  | netCoalesce p n st =>
    have h' : l = netCoalesceExec p n (rs.getD 0 (.none, .none)).2 ctx q := h
    subst h'
    simp only [Shows]
    rw [hg]
    unfold netCoalesceExec
    cases he : (CoalesceExec.mk p n).execute ctx q with
    | error e => exact .inr rfl
    | ok pulls =>
      match pulls, he with
      | [], _ => exact passed_refl _
      | pull :: rest, he =>
        rw [coalesce_one he]
        simp only [List.flatMap_cons, List.flatMap_nil, List.append_nil]
        exact .inProcess (passed_refl _)
  | netBroadcast p n st =>
    simp only [Shows]
    rw [hg]
    refine ⟨fun t v => quiet ((rs.getD 0 (.none, .none)).2.exec true ⟨t, n⟩ (v % (rs.getD 0 (.none, .none)).2.parts)),
      _, fun t v => replayed_quiet panics _, ?_, selected_quiet h⟩
    refine List.forall₂_iff_get.mpr ⟨by simp, fun i hi hi' => .inProcess ?_⟩
    simp only [List.get_eq_getElem, List.getElem_map]
    exact passed_refl _
  | _ => exact hdf

theorem Runs.attempts (panics : Bool) : ∀ {p : Plan Row} {r}, Runs p r → Attempts panics p (quietBoth r)
  | .node k tc cs, r, h => by
    have hp := runs_parts h
    obtain ⟨rs, ⟨hl, h1⟩, h2, h3, h4⟩ := runs_node.mp h
    have hrec : ∀ c ∈ cs, ∀ r, Runs c r → Attempts panics c (quietBoth r) := by
      intro c hc r
      have : sizeOf c < sizeOf cs := List.sizeOf_lt_of_mem hc
      exact Runs.attempts panics
    rw [Attempts]
    refine ⟨rs.map quietBoth, (attemptsAll_iff cs _).mpr ⟨by simpa using hl, fun i c a hc ha => ?_⟩, hp, fun w ctx q => emits_shows panics (h3 w ctx q), ?_⟩
    · rw [List.getElem?_map] at ha
      obtain ⟨r, hr, rfl⟩ := Option.map_eq_some_iff.mp ha
      exact hrec c (List.mem_of_getElem? hc) r (h1 i c r hc hr)
    · rw [getD_quiet]
      change quietAtt r.2 = _
      rw [h4]
      split <;> rfl
  termination_by p => sizeOf p

end DD.Faulty
