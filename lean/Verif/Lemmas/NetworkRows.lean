/-
Lemmas for C78: what is seen of a running query is the beginning of an execution of its plan.
-/
import Verif.Model.NetworkRows
import Verif.Lemmas.NetworkFlow
import Verif.Lemmas.FaultyQuiet

namespace DD.Net

open DD.Limit DD.Tree DD.Tree.Rec DD.Faulty

variable {Row α σ : Type} {rows : α → Except Err (List Row)} {st : State Nat α σ}

theorem rowsOf_error (e : Err) : ∀ l : List (Except Err (List Row)), rowsOf (l ++ [.error e]) = rowsOf l
  | [] => rfl
  | .error _ :: _ => rfl
  | .ok b :: l => by rw [List.cons_append, rowsOf, rowsOf, rowsOf_error e l]

theorem unseen_of (l : List Row) : (⟨[], false⟩ : Seen Row).Of l := ⟨List.nil_prefix, fun h => by cases h.1⟩

/-- What the reader of a stream has got is right if what its writer computed is. -/
theorem seenOf_of {n : Net Nat α σ} (herr : Reports rows n) (h : n.Reached st) {s : Nat} {d : Stream} (hs : n.isStream s d = true) {l : List Row}
    (hl : (sentOf rows st s d).Of l) : (seenOf rows st s d).Of l := by
  obtain ⟨e, herr⟩ := herr s d.reader d.writer
  constructor
  · rcases (Net.flow_reached h).pre s d with hpre | ⟨_, x, hx, hgot⟩
    · refine (rowsOf_prefix ?_).trans hl.1
      exact hpre.map _
    · refine List.IsPrefix.trans ?_ hl.1
      change rowsOf ((st.got s d).map rows) <+: rowsOf ((st.made s d).map rows)
      rw [hgot, List.map_append, List.map_singleton, herr, rowsOf_error]
      exact rowsOf_prefix (hx.map _)
  · rintro ⟨he, hclean⟩
    simp only [seenOf, Bool.and_eq_true, Bool.not_eq_true'] at he
    have hgot := Net.delivered h hs he.1 he.2
    have hdone : st.done s d = true :=
      Net.over_done (Net.isStream_iff.mp hs).2.2 ((Net.inv_reached h).eof s d he.1 (Or.inl he.2))
    split at hgot
    · exfalso
      obtain ⟨x, _, hgot⟩ := hgot
      refine hclean e ?_
      change _ ∈ (st.got s d).map rows
      rw [hgot, List.map_append, List.map_singleton, herr]
      simp
    · rename_i hf
      have hf := Bool.eq_false_iff.mpr hf
      have hclean' : ∀ e, Except.error e ∉ (st.made s d).map rows := by
        rw [← hgot]; exact hclean
      have := hl.2 ⟨by simp [sentOf, hdone, he.2, hf], hclean'⟩
      rw [← this]
      unfold Seen.rows seenOf sentOf
      rw [hgot]

theorem interleaved_one {x l : List Row} (h : Interleaved [x] l) : l = x := by
  unfold Interleaved at h
  generalize hls : [x] = ls at h
  induction h generalizing x with
  | done h => subst hls; exact (h x (by simp)).symm
  | @step ls i y t out hi _ _ ih =>
    subst hls
    cases i with
    | zero => cases hi; rw [ih rfl]
    | succ i => cases hi

/-- What a boundary returns is right if its input stage sends what it should. -/
theorem Pulled.emits {n : Net Nat α σ} (herr : Reports rows n) (hr : n.Reached st) {s : Nat} {k : Kind Row} (hk : k.isNet = true) {runs : List (Nat × TaskCtx)}
    {as : List (Att Row × Att Row)} {rs : List (Ran Row × Ran Row)} (hg : Goes as rs)
    (hs : ∀ t ctx q pulls pull, (t, ctx) ∈ runs → q < k.netParts → requests k ctx q = .ok pulls → pull ∈ pulls →
      n.isStream s ⟨pull.task, t, pull.partition⟩ = true)
    (hc : Computes rows st s k runs (as.getD 0 (.none, .none)).2) {w : Bool} {ctx : TaskCtx} {q : Nat} {out : Seen Row}
    (h : Pulled rows st s k runs ctx q out) : ∃ l, Emits k rs w ctx q l ∧ out.Of l := by
  have hb := (getD_goes hg 0).2
  rcases h with rfl | ⟨t, pulls, ht, hq, hp, hsel⟩
  · cases k <;> first | cases hk | skip
    · obtain ⟨l, hl⟩ := Interleaved.exists (Row := Row) _
      exact ⟨l, hl, unseen_of l⟩
    · exact ⟨_, rfl, unseen_of _⟩
    · obtain ⟨l, hl⟩ := Interleaved.exists (Row := Row) _
      exact ⟨l, hl, unseen_of l⟩
  · have hpull : ∀ pull : {x // x ∈ pulls}, ∃ l, Sends k ctx.count (rs.getD 0 (.none, .none)).2 pull.1 l
        ∧ (seenOf rows st s ⟨pull.1.task, t, pull.1.partition⟩).Of l := by
      intro pull
      obtain ⟨l, h1, h2⟩ := hc t ctx q pulls pull.1 ht hq hp pull.2 _ hb
      exact ⟨l, h1, seenOf_of herr hr (hs t ctx q pulls pull.1 ht hq hp pull.2) h2⟩
    choose f hf1 hf2 using hpull
    obtain ⟨l, hl, ho⟩ := hsel.of (ls := pulls.attach.map f) (by simp) (by
      intro i x l hx hl
      rw [List.getElem?_map] at hx hl
      obtain ⟨pull, h1, rfl⟩ := Option.map_eq_some_iff.mp hx
      obtain ⟨pull', h2, rfl⟩ := Option.map_eq_some_iff.mp hl
      have : pull'.1 = pull := by
        have := congrArg (Option.map Subtype.val) h2
        rw [← List.getElem?_map, List.attach_map_subtype_val, h1] at this
        exact (Option.some.inj this).symm
      subst this
      exact hf2 pull')
    refine ⟨l, ?_, ho⟩
    cases k <;> first | cases hk | skip
    · rename_i h p m num
      cases hp
      change Interleaved (((FanExec.mk p m).execute ctx q).flatMap fun pull => _) l
      rw [List.flatMap_def]
      refine interleaved_flatten hl _ (by simp) ?_
      intro i x y hx hy
      rw [List.getElem?_map] at hx hy
      obtain ⟨pull, h1, rfl⟩ := Option.map_eq_some_iff.mp hx
      obtain ⟨pull', h2, rfl⟩ := Option.map_eq_some_iff.mp hy
      have : pull'.1 = pull := by
        have := congrArg (Option.map Subtype.val) h2
        rw [← List.getElem?_map, List.attach_map_subtype_val, h1] at this
        exact (Option.some.inj this).symm
      subst this
      exact hf1 pull'
    · rename_i p m num
      change l = netCoalesceExec p m (rs.getD 0 (.none, .none)).2 ctx q
      unfold netCoalesceExec
      change (CoalesceExec.mk p m).execute ctx q = .ok pulls at hp
      rw [hp]
      cases pulls with
      | nil => exact List.perm_nil.mp (Merged.perm hl)
      | cons pull rest =>
        obtain ⟨rfl, _⟩ := coalesce_one hp
        have := interleaved_one hl
        rw [this, hf1 _]
        simp
    · rename_i p m num
      cases hp
      change Interleaved (((FanExec.mk p m).execute ctx q).map fun pull => _) l
      have : (List.attach _).map f = ((FanExec.mk p m).execute ctx q).map fun pull =>
          (rs.getD 0 (.none, .none)).2.exec true ⟨pull.task, m⟩ (pull.partition % (rs.getD 0 (.none, .none)).2.parts) := by
        refine Eq.trans (List.map_congr_left fun pull _ => hf1 pull) ?_
        exact List.attach_map_val (f := fun pull : Pull =>
          (rs.getD 0 (.none, .none)).2.exec true ⟨pull.task, m⟩ (pull.partition % (rs.getD 0 (.none, .none)).2.parts))
      rw [← this]
      exact hl

/-- What is seen of a plan whose boundaries belong to a running query is the beginning of an execution of the plan. -/
theorem Observed.runs {n : Net Nat α σ} (herr : Reports rows n) (hr : n.Reached st) {one : Bool} : ∀ {p : Plan Row} {above next : Nat} {runs : List (Nat × TaskCtx)} {o a},
    Ordered one p o →
    (∀ (j : Nat) x, (sites above next runs p)[j]? = some x → ∀ d ∈ x.streams, n.isStream (next + j) d = true) →
    Observed rows st above next runs p a → ∃ r, Runs p r ∧ a.1.Continues r.1 ∧ a.2.Continues r.2
  | .node k tc cs, above, next, runs, o, a, hord, hin, h => by
    obtain ⟨ord, hord1, hreads, _⟩ := hord.inv
    have hall : ∀ (l : List (Plan Row)) (above next : Nat) (runs : Nat → List (Nat × TaskCtx)) (as), (∀ c ∈ l, c ∈ cs ∧ ∃ o, Ordered one c o) →
        (∀ (j : Nat) x, (sitesAll above next runs l)[j]? = some x → ∀ d ∈ x.streams, n.isStream (next + j) d = true) →
        ObservedAll rows st above next runs l as → ∃ rs, RunsAll l rs ∧ Goes as rs := by
      intro l
      induction l with
      | nil =>
        intro _ _ _ as _ _ h
        rw [ObservedAll] at h
        subst h
        exact ⟨[], by rw [RunsAll], rfl, by simp⟩
      | cons c l ih =>
        intro above next runs as hsub hin h
        rw [ObservedAll] at h
        obtain ⟨a, rest, rfl, h1, h2⟩ := h
        have : sizeOf c < sizeOf cs := List.sizeOf_lt_of_mem (hsub c (by simp)).1
        obtain ⟨oc, hoc⟩ := (hsub c (by simp)).2
        rw [sitesAll] at hin
        obtain ⟨r, hr1, hr2⟩ := Observed.runs herr hr hoc (fun j x hx d hd => hin j x (by
          rw [List.getElem?_append_left (List.getElem?_eq_some_iff.mp hx).1]; exact hx) d hd) h1
        obtain ⟨rs, hrs1, hrs2, hrs3⟩ := ih above _ _ rest (fun c hc => hsub c (List.mem_cons_of_mem _ hc)) (fun j x hx d hd => by
          have := hin ((sites above next (runs 0) c).length + j) x (by
            rw [List.getElem?_append_right (by omega), Nat.add_sub_cancel_left]; exact hx) d hd
          rwa [← Nat.add_assoc] at this) h2
        refine ⟨r :: rs, by rw [RunsAll]; exact ⟨r, rs, rfl, hr1, hrs1⟩, by simp [hrs2], ?_⟩
        intro i a' r' ha hr'
        cases i with
        | zero => cases ha; cases hr'; exact hr2
        | succ i => exact hrs3 i a' r' ha hr'
    have hkids : ∀ c ∈ cs, c ∈ cs ∧ ∃ o, Ordered one c o := by
      intro c hc
      obtain ⟨i, hi⟩ := List.mem_iff_getElem?.mp hc
      exact ⟨hc, _, hord1 i c hi⟩
    rw [sites] at hin
    rw [Observed] at h
    cases hk : k.isNet with
    | true =>
      rw [if_pos hk] at hin h
      obtain ⟨as, h1, h2, h3, h4, h5⟩ := h
      obtain ⟨rs, hrs, hg⟩ := hall cs next (next + 1) _ as hkids (fun j x hx d hd => by
        have := hin (j + 1) x hx d hd
        rwa [show next + (j + 1) = next + 1 + j by omega] at this) h1
      have hex : ∀ w ctx q, ∃ l, Emits k rs w ctx q l ∧ (a.1.seen w ctx q).Of l := by
        intro w ctx q
        refine (h3 w ctx q).emits herr hr hk hg (fun t ctx q pulls pull ht hq hp hpull => ?_) h4
        refine hin 0 _ rfl _ ?_
        unfold Site.streams
        refine List.mem_flatMap.mpr ⟨_, ht, List.mem_flatMap.mpr ⟨q, List.mem_range.mpr hq, ?_⟩⟩
        simp only [hp]
        exact List.mem_map.mpr ⟨pull, hpull, rfl⟩
      choose ex hex1 hex2 using hex
      have hparts : a.1.parts = (runKind k rs).parts := by
        rw [h2]
        cases k <;> first | rfl | cases hk
      have hhead : k.isHead = false := by cases k <;> first | rfl | cases hk
      refine ⟨(⟨a.1.parts, ex⟩, ⟨a.1.parts, ex⟩), ?_, ⟨rfl, hex2⟩, by rw [h5]; exact ⟨rfl, hex2⟩⟩
      exact runs_node.mpr ⟨rs, (runsAll_iff cs rs).mp hrs, hparts, hex1, by simp [hhead]⟩
    | false =>
      rw [if_neg (by simp [hk])] at hin h
      obtain ⟨as, h1, h2, h3, h4⟩ := h
      obtain ⟨rs, hrs, hg⟩ := hall cs above next _ as hkids hin h1
      obtain ⟨hl, hruns⟩ := (runsAll_iff cs rs).mp hrs
      have hex : ∀ w ctx q, ∃ l, Emits k rs w ctx q l ∧ (a.1.seen w ctx q).Of l :=
        fun w ctx q => (h3 w ctx q).emits hg (fits_of hreads hord1 hl hruns w ctx q)
      choose ex hex1 hex2 using hex
      have hparts : a.1.parts = (runKind k rs).parts := by
        rw [h2, node_parts k tc cs hl fun i c r hc hr => runs_parts (hruns i c r hc hr)]
      refine ⟨(⟨a.1.parts, ex⟩, if k.isHead then (rs.getD 0 (.none, .none)).1 else ⟨a.1.parts, ex⟩), ?_, ⟨rfl, hex2⟩, ?_⟩
      · exact runs_node.mpr ⟨rs, ⟨hl, hruns⟩, hparts, hex1, rfl⟩
      · rw [h4]
        by_cases hh : k.isHead = true
        · simp only [hh, if_true]
          exact (getD_goes hg 0).1
        · simp only [hh]
          exact ⟨rfl, hex2⟩
termination_by p => sizeOf p

end DD.Net
