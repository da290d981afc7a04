/-
What is seen of a plan in which things go wrong is the beginning of what it returns if nothing does.
-/
import Verif.Model.Faulty
import Verif.Lemmas.Order
import Verif.Props.EndToEnd
import Verif.Props.BroadcastQueue

namespace DD.Faulty

open DD.Limit DD.Tree

variable {Row : Type}

/-! ### Rows before the first error -/

theorem rowsOf_prefix : ∀ {a b : List (Except Err (List Row))}, a <+: b → rowsOf a <+: rowsOf b
  | [], _, _ => List.nil_prefix
  | .error _ :: _, _, _ => List.nil_prefix
  | .ok x :: a, [], h => by simp at h
  | .ok x :: a, y :: b, h => by
    rw [List.cons_prefix_cons] at h
    obtain ⟨rfl, h⟩ := h
    rw [rowsOf, rowsOf, List.prefix_append_right_inj]
    exact rowsOf_prefix h

theorem rowsOf_pushed : ∀ a : List (Except Err (List Row)), rowsOf (pushed a) = rowsOf a
  | [] => rfl
  | .error _ :: _ => rfl
  | .ok x :: a => by rw [pushed, rowsOf, rowsOf, rowsOf_pushed a]

theorem pushed_error : ∀ {a : List (Except Err (List Row))} {e}, Except.error e ∈ a → ∃ e', Except.error e' ∈ pushed a
  | .error e' :: _, _, _ => ⟨e', by simp [pushed]⟩
  | .ok x :: a, e, h => by
    rcases List.mem_cons.mp h with h | h
    · cases h
    · obtain ⟨e', h⟩ := pushed_error h
      exact ⟨e', List.mem_cons_of_mem _ h⟩

theorem Seen.of_failed (e : Err) (l : List Row) : (Seen.failed e).Of l :=
  ⟨List.nil_prefix, fun h => absurd (List.mem_singleton.mpr rfl) (h.2 e)⟩

theorem Seen.of_empty : (Seen.empty : Seen Row).Of [] := ⟨List.nil_prefix, fun _ => rfl⟩

theorem Passed.of {s out : Seen Row} {l} (h : Passed s out) (hs : s.Of l) : out.Of l := by
  refine ⟨(rowsOf_prefix h.1).trans hs.1, fun hc => ?_⟩
  obtain ⟨h1, h2⟩ := h.2 hc.1
  rw [Seen.rows, h2]
  exact hs.2 ⟨h1, h2 ▸ hc.2⟩

theorem Replayed.of {s out : Seen Row} {l} (h : Replayed false s out) (hs : s.Of l) : out.Of l := by
  rcases h with ⟨e, rfl⟩ | ⟨steps, i, hp, hf, rfl⟩
  · exact Seen.of_failed e l
  · obtain ⟨h1, h2⟩ := BQ.C28_prefix_and_complete (pushed s.items) steps (hp rfl) i
    refine ⟨?_, fun hc => ?_⟩
    · have := rowsOf_prefix h1
      rw [rowsOf_pushed] at this
      exact this.trans hs.1
    · obtain ⟨h3, h4⟩ := h2 hc.1
      have hn : ∀ e, Except.error e ∉ s.items := by
        intro e he
        obtain ⟨e', he'⟩ := pushed_error he
        refine hc.2 e' ?_
        change _ ∈ ((BQ.run _ steps).cons i).out
        rw [h4]; exact he'
      have hend : s.ended = true := by
        rcases hf h3 with h | ⟨e, h⟩
        · exact h
        · exact absurd h (hn e)
      change rowsOf ((BQ.run _ steps).cons i).out = l
      rw [h4, rowsOf_pushed]
      exact hs.2 ⟨hend, hn⟩

/-! ### A connection -/

theorem not_crash {steps : List SelectAll.Step} (h : ∀ i, SelectAll.Step.crash i ∉ steps) :
    ∀ st ∈ steps, SelectAll.isCrash st = false := by
  intro st hst
  cases st with
  | crash i => exact absurd hst (h i)
  | _ => rfl

/-- The batches a consumer gets before an error are batches of its partition. -/
theorem demux_rows (n cap : Nat) (sources : Nat → List (Except Err (List Row))) (size : List Row → Nat)
    (ssteps : List SelectAll.Step) (hss : ∀ st ∈ ssteps, SelectAll.isCrash st = false) (c : Demux.Cfg (List Row))
    (hrecv : Arrives size c.start (SelectAll.run n cap sources ssteps) c.sent)
    (csteps : List Demux.Step) (hcs : Demux.Step.crash ∉ csteps) (i : Nat) (hi : i < n) :
    rowsOf ((Demux.run c (Demux.init c) csteps).chans i).out <+: rowsOf (sources i) := by
  have h1 := rowsOf_prefix (Demux.C29_delivers_own_partition_in_order c csteps i)
  refine h1.trans ?_
  have hI := SelectAll.run_inv n cap sources ssteps hss
  generalize SelectAll.run n cap sources ssteps = srv at *
  unfold Demux.total
  cases c.connectErr with
  | some e => exact List.nil_prefix
  | none =>
    -- a prefix of the merged stream without errors
    have key : ∀ (out : List (Nat × Except Err (List Row))) (rest : List (Demux.Wire (List Row))),
        (∀ w, rest.head? = some w → Demux.deliverable c w = false) →
        rowsOf (((((out.map (SelectAll.wireOf size c.start)) ++ rest).takeWhile (Demux.deliverable c)).filterMap
          (Demux.payloadOf (c.start + i))).map .ok) <+: rowsOf (SelectAll.itemsOf i out) := by
      intro out rest hr
      induction out with
      | nil =>
        have : rest.takeWhile (Demux.deliverable c) = [] := by
          cases rest with
          | nil => rfl
          | cons w ws => rw [List.takeWhile_cons, hr w rfl]; rfl
        simp only [List.map_nil, List.nil_append, this, List.filterMap_nil]
        exact List.nil_prefix
      | cons x xs ih =>
        obtain ⟨j, x⟩ := x
        cases x with
        | error e =>
          have : Demux.deliverable c (SelectAll.wireOf size c.start (j, .error e)) = false := rfl
          rw [List.map_cons, List.cons_append, List.takeWhile_cons, this]
          exact List.nil_prefix
        | ok b =>
          rw [List.map_cons, List.cons_append, List.takeWhile_cons]
          split
          · have hpay : Demux.payloadOf (c.start + i) (SelectAll.wireOf size c.start (j, .ok b)) = if j = i then some b else none := by
              simp only [SelectAll.wireOf, Demux.payloadOf]
              by_cases h : j = i
              · simp [h]
              · rw [if_neg (by omega), if_neg h]
            rw [List.filterMap_cons, hpay]
            by_cases hji : j = i
            · subst hji
              simp only [↓reduceIte, List.map_cons, rowsOf, SelectAll.itemsOf, List.filterMap_cons]
              rw [List.prefix_append_right_inj]
              exact ih
            · simp only [if_neg hji, SelectAll.itemsOf, List.filterMap_cons]
              exact ih
          · exact List.nil_prefix
    have hsent : rowsOf (((c.sent.takeWhile (Demux.deliverable c)).filterMap (Demux.payloadOf (c.start + i))).map .ok)
        <+: rowsOf (SelectAll.itemsOf i srv.out) := by
      rcases hrecv with ⟨_, hs⟩ | ⟨e, k, hs⟩
      · rw [hs]
        have := key srv.out [] (by simp)
        rwa [List.append_nil] at this
      · rw [hs]
        refine (key (srv.out.take k) [.err e] (by rintro w ⟨⟩; rfl)).trans (rowsOf_prefix ?_)
        exact (List.take_prefix k srv.out).filterMap _
    have hitems : SelectAll.itemsOf i srv.out <+: sources i := by
      have := hI.split i hi
      rw [List.append_assoc] at this
      exact ⟨_, this⟩
    refine List.IsPrefix.trans ?_ (hsent.trans (rowsOf_prefix hitems))
    -- what follows is at most one error
    have hlast : ∀ (a : List (List Row)) (o : Option (Demux.Wire (List Row))),
        rowsOf (a.map .ok ++ (o.map fun w => Except.error (Demux.faultErr w)).toList) = rowsOf (a.map .ok : List (Except Err (List Row))) := by
      intro a o
      induction a with
      | nil => cases o <;> rfl
      | cons x xs ih => simp only [List.map_cons, List.cons_append, rowsOf, ih]
    rw [Demux.expected, hlast]
    exact List.prefix_rfl

theorem Carried.of {src : Nat → Seen Row} {pull : Pull} {out : Seen Row} {l} (h : Carried false src pull out)
    (hs : (src pull.partition).Of l) : out.Of l := by
  cases h with
  | failed e => exact Seen.of_failed e l
  | inProcess h => exact h.of hs
  | grpc cap size ssteps c csteps h1 h2 h3 h4 hc he hr =>
    obtain ⟨hc1, hc2⟩ := hc rfl
    have hi : pull.partition - pull.lo < c.n := by omega
    have hv : c.start + (pull.partition - pull.lo) = pull.partition := by omega
    refine ⟨?_, fun hcl => ?_⟩
    · have := demux_rows c.n cap _ size ssteps (not_crash hc1) c hr csteps hc2 _ hi
      rw [hv] at this
      exact this.trans hs.1
    · obtain ⟨h5, h6⟩ := SelectAll.C32_clean_end_is_complete_partial c.n cap (fun i => (src (c.start + i)).items) size ssteps
        (not_crash hc1) c hr csteps hc2 _ hi hcl.1 hcl.2
      have hend : (src pull.partition).ended = true := by
        rcases hr with ⟨heos, _⟩ | ⟨e, k, hsent⟩
        · have := he heos _ hi
          rwa [hv] at this
        · exfalso
          have := (Demux.C32_client_clean_end c csteps hc2 _ hcl.1 hcl.2).2.1 (.err e) (by rw [hsent]; simp)
          simp [Demux.deliverable] at this
      change rowsOf ((Demux.run c (Demux.init c) csteps).chans (pull.partition - pull.lo)).out = l
      rw [h5]
      simp only [hv]
      refine hs.2 ⟨hend, fun e h => h6 _ hi e ?_⟩
      simp only [hv]; exact h

/-! ### Several streams -/

theorem Interleaved.exists (ls : List (List Row)) : ∃ l, Interleaved ls l := Merged.exists Limit.Order.any ls

/-- Several rows of one stream in a row. -/
theorem Interleaved.append {ls : List (List Row)} {i : Nat} : ∀ {b t l : List Row}, ls[i]? = some (b ++ t) →
    Interleaved (ls.set i t) l → Interleaved ls (b ++ l)
  | [], t, l, h, hl => by
    have : ls.set i t = ls := by
      refine List.ext_getElem? fun j => ?_
      rw [List.getElem?_set]
      split
      · rename_i e; subst e
        split
        · exact h.symm
        · rename_i hn; rw [List.getElem?_eq_none (by omega)]
      · rfl
    rw [this] at hl; exact hl
  | x :: b, t, l, h, hl => by
    refine .step h (fun _ _ _ _ => True.intro) ?_
    have hlt : i < ls.length := (List.getElem?_eq_some_iff.mp h).1
    refine Interleaved.append (i := i) (b := b) (t := t) ?_ ?_
    · rw [List.getElem?_set_self hlt]; rfl
    · rwa [List.set_set]

theorem interleaved_rows {ps : List (List (Except Err (List Row)))} {out} (h : Interleaved ps out) :
    ∀ ls : List (List Row), ls.length = ps.length → (∀ (i : Nat) p l, ps[i]? = some p → ls[i]? = some l → rowsOf p <+: l) →
    ∃ l, Interleaved ls l ∧ rowsOf out <+: l := by
  unfold Interleaved at h
  induction h with
  | done _ => intro ls _ _; obtain ⟨l, hl⟩ := Interleaved.exists ls; exact ⟨l, hl, List.nil_prefix⟩
  | @step ps i x t out hi _ _ ih =>
    intro ls hlen hp
    cases x with
    | error e => obtain ⟨l, hl⟩ := Interleaved.exists ls; exact ⟨l, hl, List.nil_prefix⟩
    | ok b =>
      have hlt : i < ps.length := (List.getElem?_eq_some_iff.mp hi).1
      obtain ⟨li, hli⟩ : ∃ li, ls[i]? = some li := ⟨_, List.getElem?_eq_getElem (by omega)⟩
      obtain ⟨rest, hrest⟩ := hp i _ _ hi hli
      rw [rowsOf, List.append_assoc] at hrest
      obtain ⟨l, h1, h2⟩ := ih (ls.set i (rowsOf t ++ rest)) (by simp [hlen]) (by
        intro j p l hj hl
        by_cases e : i = j
        · subst e
          rw [List.getElem?_set_self hlt] at hj
          rw [List.getElem?_set_self (by omega)] at hl
          cases hj; cases hl
          exact List.prefix_append _ _
        · rw [List.getElem?_set_ne e] at hj hl
          exact hp j p l hj hl)
      refine ⟨b ++ l, Interleaved.append (i := i) (t := rowsOf t ++ rest) (by rw [hli, hrest]) h1, ?_⟩
      rw [rowsOf, List.prefix_append_right_inj]
      exact h2

theorem interleaved_clean {ps : List (List (Except Err (List Row)))} {out} (h : Interleaved ps out) :
    (∀ e, Except.error e ∉ out) → Interleaved (ps.map rowsOf) (rowsOf out) ∧ ∀ p ∈ ps, ∀ e, Except.error e ∉ p := by
  unfold Interleaved at h
  induction h with
  | done h =>
    intro _
    refine ⟨.done ?_, fun p hp e he => by rw [h p hp] at he; cases he⟩
    intro l hl
    obtain ⟨p, hp, rfl⟩ := List.mem_map.mp hl
    rw [h p hp]; rfl
  | @step ps i x t out hi _ _ ih =>
    intro hn
    cases x with
    | error e => exact absurd List.mem_cons_self (hn e)
    | ok b =>
      have hlt : i < ps.length := (List.getElem?_eq_some_iff.mp hi).1
      obtain ⟨h1, h2⟩ := ih fun e he => hn e (List.mem_cons_of_mem _ he)
      refine ⟨?_, ?_⟩
      · rw [rowsOf]
        refine Interleaved.append (i := i) (t := rowsOf t) (by rw [List.getElem?_map, hi]; rfl) ?_
        rw [List.map_set] at h1; exact h1
      · intro p hp e he
        obtain ⟨j, hj⟩ := List.mem_iff_getElem?.mp hp
        by_cases e' : i = j
        · subst e'
          rw [hi] at hj; cases hj
          rcases List.mem_cons.mp he with he | he
          · cases he
          · exact h2 t (List.mem_iff_getElem?.mpr ⟨i, by rw [List.getElem?_set_self hlt]⟩) e he
        · exact h2 p (List.mem_iff_getElem?.mpr ⟨j, by rw [List.getElem?_set_ne e', hj]⟩) e he

theorem Selected.of {ss : List (Seen Row)} {out : Seen Row} {ls : List (List Row)} (h : Selected ss out)
    (hlen : ls.length = ss.length) (hs : ∀ (i : Nat) s l, ss[i]? = some s → ls[i]? = some l → s.Of l) :
    ∃ l, Interleaved ls l ∧ out.Of l := by
  obtain ⟨ps, hpl, hp, hi⟩ := h
  by_cases hc : out.Clean
  · obtain ⟨h1, h2⟩ := interleaved_clean hi hc.2
    refine ⟨out.rows, ?_, List.prefix_rfl, fun _ => rfl⟩
    have : ps.map rowsOf = ls := by
      refine List.ext_getElem? fun j => ?_
      rw [List.getElem?_map]
      by_cases hj : j < ps.length
      · have e1 := List.getElem?_eq_getElem hj
        have e2 := List.getElem?_eq_getElem (show j < ss.length by omega)
        have e3 := List.getElem?_eq_getElem (show j < ls.length by omega)
        obtain ⟨h3, h4⟩ := (hp j _ _ e1 e2).2 hc.1
        rw [e1, e3, Option.map_some]
        have := (hs j _ _ e2 e3).2 ⟨h3, fun e he => h2 _ (List.getElem_mem hj) e (h4 ▸ he)⟩
        rw [← this, Seen.rows, h4]
      · rw [List.getElem?_eq_none (by omega), List.getElem?_eq_none (by omega)]; rfl
    rw [← this]; exact h1
  · obtain ⟨l, h1, h2⟩ := interleaved_rows hi ls (by omega) (fun i p l hi hl => by
      have hj : i < ps.length := (List.getElem?_eq_some_iff.mp hi).1
      have e2 := List.getElem?_eq_getElem (show i < ss.length by omega)
      exact (rowsOf_prefix (hp i _ _ hi e2).1).trans (hs i _ _ e2 hl).1)
    exact ⟨l, h1, h2, fun h => absurd h hc⟩

/-- Streams that are themselves interleavings. -/
theorem interleaved_flatten {ls : List (List Row)} {l : List Row} (h : Interleaved ls l) :
    ∀ lss : List (List (List Row)), lss.length = ls.length →
      (∀ (i : Nat) x y, lss[i]? = some x → ls[i]? = some y → Interleaved x y) → Interleaved lss.flatten l := by
  unfold Interleaved at h
  induction h with
  | @done ls h =>
    intro lss hlen hx
    refine .done fun y hy => ?_
    obtain ⟨x, hx1, hy⟩ := List.mem_flatten.mp hy
    obtain ⟨i, hi⟩ := List.mem_iff_getElem?.mp hx1
    have hlt : i < lss.length := (List.getElem?_eq_some_iff.mp hi).1
    have e := List.getElem?_eq_getElem (show i < ls.length by omega)
    have := (hx i _ _ hi e).perm
    rw [h _ (List.getElem_mem (by omega))] at this
    have := List.nil_perm.mp this
    exact List.flatten_eq_nil_iff.mp this y hy
  | @step ls i a t l hi _ hl ih =>
    intro lss hlen hx
    have hlt : i < ls.length := (List.getElem?_eq_some_iff.mp hi).1
    have e := List.getElem?_eq_getElem (show i < lss.length by omega)
    have hst := hx i _ _ e hi
    generalize hxx : lss[i] = x at hst e
    cases hst with
    | @step _ j _ t' _ hj _ hr =>
      have := ih (lss.set i (x.set j t')) (by simp [hlen]) (by
        intro k y z hk hz
        by_cases e' : i = k
        · subst e'
          rw [List.getElem?_set_self (by omega)] at hk
          rw [List.getElem?_set_self hlt] at hz
          cases hk; cases hz; exact hr
        · rw [List.getElem?_set_ne e'] at hk hz
          exact hx k y z hk hz)
      -- where the row stands in the flat list
      have hsplit : lss = lss.take i ++ x :: lss.drop (i + 1) := by
        have hi' : i < lss.length := by omega
        rw [← hxx, ← List.drop_eq_getElem_cons hi', List.take_append_drop]
      have hflat : lss.flatten = (lss.take i).flatten ++ (x ++ (lss.drop (i + 1)).flatten) := by
        conv_lhs => rw [hsplit]
        simp
      have hset : (lss.set i (x.set j t')).flatten = (lss.take i).flatten ++ (x.set j t' ++ (lss.drop (i + 1)).flatten) := by
        rw [List.set_eq_take_append_cons_drop, if_pos (by omega)]
        simp
      have hjl : j < x.length := (List.getElem?_eq_some_iff.mp hj).1
      refine .step (i := (lss.take i).flatten.length + j) (t := t') ?_ (fun _ _ _ _ => True.intro) ?_
      · rw [hflat, List.getElem?_append_right (by omega), Nat.add_sub_cancel_left, List.getElem?_append_left hjl]
        exact hj
      · rw [hflat, List.set_append_right _ _ (by omega), Nat.add_sub_cancel_left, List.set_append_left _ _ hjl, ← hset]
        exact this

/-! ### Plans -/

theorem getD_goes {as : List (Att Row × Att Row)} {rs : List (Ran Row × Ran Row)} (h : Goes as rs) (i : Nat) :
    ((as.getD i (.none, .none)).1).Continues ((rs.getD i (.none, .none)).1)
    ∧ ((as.getD i (.none, .none)).2).Continues ((rs.getD i (.none, .none)).2) := by
  obtain ⟨hl, h⟩ := h
  by_cases hi : i < as.length
  · have e1 := List.getElem?_eq_getElem hi
    have e2 := List.getElem?_eq_getElem (show i < rs.length by omega)
    have := h i _ _ e1 e2
    rw [List.getD_eq_getElem?_getD, List.getD_eq_getElem?_getD, e1, e2]
    exact this
  · rw [List.getD_eq_getElem?_getD, List.getD_eq_getElem?_getD, List.getElem?_eq_none (by omega), List.getElem?_eq_none (by omega)]
    exact ⟨⟨rfl, fun _ _ _ => Seen.of_empty⟩, ⟨rfl, fun _ _ _ => Seen.of_empty⟩⟩

theorem goes_parts {as : List (Att Row × Att Row)} {rs : List (Ran Row × Ran Row)} (h : Goes as rs) :
    as.map (·.1.parts) = rs.map (·.1.parts) := by
  refine List.ext_getElem? fun i => ?_
  rw [List.getElem?_map, List.getElem?_map]
  by_cases hi : i < as.length
  · have e1 := List.getElem?_eq_getElem hi
    have e2 := List.getElem?_eq_getElem (show i < rs.length by have := h.1; omega)
    rw [e1, e2]
    exact congrArg some (h.2 i _ _ e1 e2).1.1.symm
  · rw [List.getElem?_eq_none (by omega), List.getElem?_eq_none (by have := h.1; omega)]; rfl

theorem Shows.emits {k : Kind Row} {as : List (Att Row × Att Row)} {rs : List (Ran Row × Ran Row)} {w ctx q out}
    (h : Shows false k as w ctx q out) (hg : Goes as rs) (hfit : Fits k rs w ctx q) : ∃ l, Emits k rs w ctx q l ∧ out.Of l := by
  obtain ⟨⟨hp0, h0⟩, ⟨hpb, hb⟩⟩ := getD_goes hg 0
  cases k with
  | ciu ws m =>
    refine ⟨_, rfl, ?_⟩
    change out.Of (ciuExec w (rs.map (·.1)) (m.getD ctx.index []) q)
    simp only [Shows] at h
    unfold ciuExec
    rw [goes_parts hg] at h
    rw [List.map_map]
    change out.Of (match Union.execIn (rs.map fun r => r.1.parts) _ q with | .ok (some r) => _ | _ => [])
    split at h
    · rename_i r he
      rw [he]
      change out.Of (((rs.map (·.1)).getD r.child ((Ran.none, Ran.none) : Ran Row × Ran Row).1).exec w r.ctx r.partition)
      rw [getD_map rs (·.1) r.child (.none, .none)]
      exact h.of ((getD_goes hg r.child).1.2 _ _ _)
    · rename_i he; rw [he]; exact h.of Seen.of_empty
    · rename_i he
      rw [he]
      rcases h with rfl | rfl
      · exact Seen.of_failed _ _
      · exact Seen.of_empty
  | broadcast n =>
    refine ⟨_, rfl, ?_⟩
    simp only [Shows] at h
    rw [← hp0] at h
    exact h.of (h0 _ _ _)
  | shuffle hh p n st =>
    obtain ⟨src, got, h1, h2, h3⟩ := h
    have h1' := fun t v => h1 t v _ ⟨hpb, hb⟩
    choose f hf1 hf2 using h1'
    obtain ⟨l, hl, ho⟩ := h3.of (ls := ((FanExec.mk p n).execute ctx q).map fun pull => f pull.task pull.partition) (by
      simpa using h2.length_eq) (by
      intro i s l hs hl
      rw [List.getElem?_map] at hl
      obtain ⟨pull, hpull, rfl⟩ := Option.map_eq_some_iff.mp hl
      have hc : Carried false (src pull.task) pull s := by
        obtain ⟨hlt, hpe⟩ := List.getElem?_eq_some_iff.mp hpull
        obtain ⟨hlt', hse⟩ := List.getElem?_eq_some_iff.mp hs
        have := (List.forall₂_iff_get.mp h2).2 i hlt hlt'
        simpa only [List.get_eq_getElem, hpe, hse] using this
      exact hc.of (hf2 _ _))
    refine ⟨l, ?_, ho⟩
    change Interleaved (((FanExec.mk p n).execute ctx q).flatMap fun pull => _) l
    rw [List.flatMap_def]
    refine interleaved_flatten hl _ (by simp) ?_
    intro i x y hx hy
    rw [List.getElem?_map] at hx hy
    obtain ⟨pull, hpull, rfl⟩ := Option.map_eq_some_iff.mp hx
    rw [hpull] at hy
    cases hy
    exact hf1 pull.task pull.partition
  | netCoalesce p n st =>
    refine ⟨_, rfl, ?_⟩
    change out.Of (netCoalesceExec p n _ ctx q)
    simp only [Shows] at h
    unfold netCoalesceExec
    split at h
    · rename_i e he
      rw [he]
      rcases h with rfl | rfl
      · exact Seen.of_failed _ _
      · exact Seen.of_empty
    · rename_i he
      rw [he]; exact h.of Seen.of_empty
    · rename_i pull rest he
      have hr : rest = [] := by
        unfold CoalesceExec.execute at he
        split at he
        · cases he
        · dsimp only at he
          split at he
          · cases he
          · split at he
            · cases he
            · split at he <;> cases he
              rfl
      subst hr
      rw [he]
      simp only [List.flatMap_cons, List.flatMap_nil, List.append_nil]
      exact h.of (hb _ _ _)
  | netBroadcast p n st =>
    obtain ⟨src, got, h1, h2, h3⟩ := h
    obtain ⟨l, hl, ho⟩ := h3.of (ls := ((FanExec.mk p n).execute ctx q).map fun pull =>
        (rs.getD 0 (.none, .none)).2.exec true ⟨pull.task, n⟩ (pull.partition % (rs.getD 0 (.none, .none)).2.parts)) (by
      simpa using h2.length_eq) (by
      intro i s l hs hl
      rw [List.getElem?_map] at hl
      obtain ⟨pull, hpull, rfl⟩ := Option.map_eq_some_iff.mp hl
      have hc : Carried false (src pull.task) pull s := by
        obtain ⟨hlt, hpe⟩ := List.getElem?_eq_some_iff.mp hpull
        obtain ⟨hlt', hse⟩ := List.getElem?_eq_some_iff.mp hs
        have := (List.forall₂_iff_get.mp h2).2 i hlt hlt'
        simpa only [List.get_eq_getElem, hpe, hse] using this
      have hr := h1 pull.task pull.partition
      rw [← hpb] at hr
      exact hc.of (hr.of (hb _ _ _)))
    exact ⟨l, hl, ho⟩
  | _ => exact h rs hg hfit

theorem attemptsAll_iff {panics : Bool} : ∀ (cs : List (Plan Row)) as, AttemptsAll panics cs as ↔
    as.length = cs.length ∧ ∀ (i : Nat) c a, cs[i]? = some c → as[i]? = some a → Attempts panics c a
  | [], as => by
    rw [AttemptsAll]
    exact ⟨fun h => by subst h; simp, fun h => List.eq_nil_of_length_eq_zero h.1⟩
  | c :: cs, as => by
    rw [AttemptsAll]
    constructor
    · rintro ⟨a, rest, rfl, h1, h2⟩
      obtain ⟨h3, h4⟩ := (attemptsAll_iff cs rest).mp h2
      refine ⟨by simp [h3], fun i c' a' hc ha => ?_⟩
      match i with
      | 0 => cases hc; cases ha; exact h1
      | i + 1 => exact h4 i c' a' hc ha
    · rintro ⟨h1, h2⟩
      match as with
      | a :: rest =>
        exact ⟨a, rest, rfl, h2 0 c a rfl rfl, (attemptsAll_iff cs rest).mpr ⟨by simpa using h1, fun i c' a' hc ha => h2 (i + 1) c' a' hc ha⟩⟩

/-- Partition counts only depend on partition counts. -/
theorem runKind_parts {k : Kind Row} {rs rs' : List (Ran Row × Ran Row)} (h : rs.map (·.1.parts) = rs'.map (·.1.parts)) :
    (runKind k rs).parts = (runKind k rs').parts := by
  have hg : ∀ i, (rs.getD i (.none, .none)).1.parts = (rs'.getD i (.none, .none)).1.parts := by
    intro i
    have e : ∀ l : List (Ran Row × Ran Row), (l.getD i (.none, .none)).1.parts = (l.map (·.1.parts)).getD i 0 := by
      intro l
      rw [List.getD_eq_getElem?_getD, List.getD_eq_getElem?_getD, List.getElem?_map]
      cases l[i]? <;> rfl
    rw [e, e, h]
  cases k with
  | join m s => cases m <;> first | exact hg 0 | exact hg 1
  | op g r => exact hg 0
  | union => exact congrArg List.sum h
  | ciu ws m =>
    change ciuParts m ((rs.map (·.1.parts))) = ciuParts m ((rs'.map (·.1.parts)))
    rw [h]
  | broadcast n => exact congrArg (· * n) (hg 0)
  | _ => rfl

theorem node_parts (k : Kind Row) (tc) (cs : List (Plan Row)) {rs : List (Ran Row × Ran Row)} (hl : rs.length = cs.length)
    (h : ∀ (i : Nat) c r, cs[i]? = some c → rs[i]? = some r → r.1.parts = c.parts) :
    (runKind k rs).parts = (Plan.node k tc cs).parts := by
  change _ = (runKind k (runAll cs)).parts
  refine runKind_parts ?_
  rw [runAll_eq, List.map_map]
  refine List.ext_getElem? fun i => ?_
  rw [List.getElem?_map, List.getElem?_map]
  by_cases hi : i < cs.length
  · have e1 := List.getElem?_eq_getElem hi
    have e2 := List.getElem?_eq_getElem (show i < rs.length by omega)
    rw [e1, e2]
    exact congrArg some (h i _ _ e1 e2)
  · rw [List.getElem?_eq_none (by omega), List.getElem?_eq_none (by omega)]; rfl

theorem runs_parts : ∀ {p : Plan Row} {r}, Runs p r → r.1.parts = p.parts
  | .node k tc cs, r, h => by
    obtain ⟨rs, ⟨hl, h1⟩, h2, _⟩ := runs_node.mp h
    have hk : ∀ c ∈ cs, ∀ r, Runs c r → r.1.parts = c.parts := by
      intro c hc r
      have : sizeOf c < sizeOf cs := List.sizeOf_lt_of_mem hc
      exact runs_parts
    rw [h2, node_parts k tc cs hl fun i c r hc hr => hk c (List.mem_of_getElem? hc) r (h1 i c r hc hr)]
  termination_by p => sizeOf p

/-- Plans whose operators are given the orders they rely on keep to it in every execution. -/
theorem fits_of {one : Bool} {k : Kind Row} {a : Nat → Option (Row → Row → Bool)} {cs : List (Plan Row)} {rs : List (Ran Row × Ran Row)}
    (hk : Reads k a) (hc : ∀ (i : Nat) c, cs[i]? = some c → Ordered one c (a i)) (hl : rs.length = cs.length)
    (hr : ∀ (i : Nat) c r, cs[i]? = some c → rs[i]? = some r → Runs c r) (w : Bool) (ctx : TaskCtx) (q : Nat) : Fits k rs w ctx q := by
  have key : ∀ i q, SortedBy (a i) ((rs.getD i (.none, .none)).1.exec w ctx q) := by
    intro i q
    rcases getD_kids hl i with ⟨_, e⟩ | ⟨c, r', e1, e2, e3⟩
    · rw [e]; exact SortedBy.nil _
    · rw [e3]
      exact (hc i c e1).sorted (hr i c r' e1 e2) w ctx q
  cases k with
  | op g red =>
    intro i
    have e : (rs.map fun c => c.1.exec w ctx q).getD i [] = (rs.getD i (.none, .none)).1.exec w ctx q := by
      rw [List.getD_eq_getElem?_getD, List.getD_eq_getElem?_getD, List.getElem?_map]
      cases rs[i]? <;> rfl
    rw [e]
    rcases hk.1 i with h | h
    · rw [h]; exact True.intro
    · rw [← h]; exact key i q
  | spm f le =>
    intro i
    have := key 0 i
    rw [hk.2.1] at this
    exact this
  | _ => exact True.intro

/-- Whatever goes wrong, unless something panics: what is seen is the beginning of an execution in which nothing goes
wrong. -/
theorem Attempts.runs {one : Bool} : ∀ {p : Plan Row} {o a}, Ordered one p o → Attempts false p a → ∃ r, Runs p r ∧ a.1.Continues r.1 ∧ a.2.Continues r.2
  | .node k tc cs, o, a, hord, h => by
    rw [Attempts] at h
    obtain ⟨as, h1, h2, h3, h4⟩ := h
    obtain ⟨hl, ha⟩ := (attemptsAll_iff cs as).mp h1
    obtain ⟨ord, hord1, hreads, _⟩ := hord.inv
    have hrec : ∀ c ∈ cs, ∀ o a, Ordered one c o → Attempts false c a → ∃ r, Runs c r ∧ a.1.Continues r.1 ∧ a.2.Continues r.2 := by
      intro c hc o a
      have : sizeOf c < sizeOf cs := List.sizeOf_lt_of_mem hc
      exact Attempts.runs
    have hk : ∀ i : Fin cs.length, ∃ r, Runs (cs[i.1]'i.2) r ∧ (as[i.1]'(by omega)).1.Continues r.1 ∧ (as[i.1]'(by omega)).2.Continues r.2 :=
      fun i => hrec _ (List.getElem_mem i.2) _ _ (hord1 i.1 _ (List.getElem?_eq_getElem i.2)) (ha i.1 _ _ (List.getElem?_eq_getElem i.2) (List.getElem?_eq_getElem (by omega)))
    choose f hf using hk
    have hrl : (List.ofFn f).length = cs.length := List.length_ofFn
    have hget : ∀ (i : Nat) (hi : i < cs.length), (List.ofFn f)[i]? = some (f ⟨i, hi⟩) := by
      intro i hi
      rw [List.getElem?_eq_getElem (by omega), List.getElem_ofFn]
    have hruns : ∀ (i : Nat) c r, cs[i]? = some c → (List.ofFn f)[i]? = some r → Runs c r := by
      intro i c r hc hr
      obtain ⟨hi, rfl⟩ := List.getElem?_eq_some_iff.mp hc
      rw [hget i hi] at hr
      cases hr
      exact (hf ⟨i, hi⟩).1
    have hg : Goes as (List.ofFn f) := by
      refine ⟨by omega, fun i a r hia hir => ?_⟩
      obtain ⟨hi, rfl⟩ := List.getElem?_eq_some_iff.mp hia
      rw [hget i (by omega)] at hir
      cases hir
      exact (hf ⟨i, by omega⟩).2
    have hex : ∀ w ctx q, ∃ l, Emits k (List.ofFn f) w ctx q l ∧ (a.1.seen w ctx q).Of l :=
      fun w ctx q => (h3 w ctx q).emits hg (fits_of hreads hord1 hrl hruns w ctx q)
    choose ex hex1 hex2 using hex
    have hparts : a.1.parts = (runKind k (List.ofFn f)).parts := by
      rw [h2, node_parts k tc cs hrl fun i c r hc hr => runs_parts (hruns i c r hc hr)]
    refine ⟨(⟨a.1.parts, ex⟩, if k.isHead then ((List.ofFn f).getD 0 (.none, .none)).1 else ⟨a.1.parts, ex⟩), ?_, ⟨rfl, hex2⟩, ?_⟩
    · exact runs_node.mpr ⟨List.ofFn f, ⟨hrl, hruns⟩, hparts, hex1, rfl⟩
    · rw [h4]
      by_cases hh : k.isHead = true
      · simp only [hh, if_true]
        exact (getD_goes hg 0).1
      · simp only [hh]
        exact ⟨rfl, hex2⟩
  termination_by p => sizeOf p

end DD.Faulty
