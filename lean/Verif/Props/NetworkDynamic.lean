/-
C77 and C78 with task counts chosen while the query runs: the plan is the one that preparation ends with, and the network is the one of all
its stages. While the plan is still being prepared its finished stages already run: nobody reads their streams yet, which the schedules
of the network cover, since the streams of a stage may be left alone for any time.
-/
import Verif.Props.NetworkRows
import Verif.Props.OrderDynamic

namespace DD.Net

open DD.Tree DD.Tree.Rec DD.Faulty DD.Limit

variable {Row α σ : Type} {env : Env Row}

/-- **C77** (partial) Queries that are planned while they run end, whatever their stages report, as statically planned ones do in
`C77_planned_queries_end_partial`. -/
theorem C77_dynamic_queries_end_partial (he : EnvOk env) {p p' : Plan Row} {J : SInfo Row}
    (h : Src env .pre p J) (hrep : J.rep = false) (hroot : RootOk env p J) (cpu : Plan Row → Plan Row → Except Err (Option Nat)) (bytes : Nat)
    (hp : dynamicPlan (env.costing cpu bytes) p = .ok p') (b : Net Nat α σ) (hroom : Room b) (sched : Nat → Step Nat)
    (hfair : (planNet p' b).Fair sched) :
    ∃ T, ∀ t, T ≤ t → (planNet p' b).Finished (((planNet p' b).inOrder id).runFor sched t) := by
  obtain ⟨d, hl, _⟩ := dynamic_src (he.costing cpu bytes) (h.costing cpu bytes) hrep (hroot.costing cpu bytes) hp
  have hw := legal_wired hl (by decide)
  exact Net.C77_ordered_reading_ends_partial _ id (planNet_ok hw hroom) (List.mem_range.mpr (Nat.succ_pos _)) sched hfair

/-- **C77** Every task of such a query that reads something is asked for something. -/
theorem C77_dynamic_tasks_are_asked (he : EnvOk env) {p p' : Plan Row} {J : SInfo Row}
    (h : Src env .pre p J) (hrep : J.rep = false) (hroot : RootOk env p J) (cpu : Plan Row → Plan Row → Except Err (Option Nat)) (bytes : Nat)
    (hp : dynamicPlan (env.costing cpu bytes) p = .ok p') (b : Net Nat α σ) :
    ∀ s d, (planNet p' b).isStream s d = true → (planNet p' b).parent s ≠ (planNet p' b).root →
      ∃ d' ∈ (planNet p' b).streams ((planNet p' b).parent s), d'.writer = d.reader := by
  obtain ⟨d, hl, _⟩ := dynamic_src (he.costing cpu bytes) (h.costing cpu bytes) hrep (hroot.costing cpu bytes) hp
  exact planNet_sends (legal_wired hl (by decide)) b

/-- **C78** (partial) What the client has received at any time of a query that is planned while it runs is the beginning of an answer of the
query; once it has seen the end and no error, it is an answer. -/
theorem C78_dynamic_received_so_far_partial (he : EnvOk env) (hs : ScaleKeepsOrder env) {p p' : Plan Row} {J : SInfo Row}
    (h : Src env .pre p J) (hrep : J.rep = false) (hroot : RootOk env p J) {o} (hq : Ordered false p o)
    (cpu : Plan Row → Plan Row → Except Err (Option Nat)) (bytes : Nat) (hp : dynamicPlan (env.costing cpu bytes) p = .ok p')
    (b : Net Nat α σ) {rows : α → Except Err (List Row)} (herr : Reports rows b) {st : State Nat α σ} (hr : (planNet p' b).Reached st)
    {s : Seen Row} (hgot : ClientGot rows st p' s) :
    ∃ l d, s.rows <+: l ∧ (s.Clean → s.rows = l) ∧ Answer p d ∧ J.eqv.eqv l d := by
  obtain ⟨l, hl, h1, h2⟩ := C78_received_is_right (dynamic_ordered_any hs hq cpu bytes hp) herr hr hgot
  obtain ⟨d, hd, e⟩ := (C70_dynamic_operators_get_sorted_inputs_partial he hs h hrep hroot hq cpu bytes hp).2 l hl
  exact ⟨l, d, h1, h2, hd, e⟩

/-- **C78** (partial) Queries that are planned while they run end, and what the client has received in the end is an answer of the query,
whatever the stages reported and so whatever the task counts are, under the conditions of `C78_queries_end_with_an_answer_partial`. -/
theorem C78_dynamic_queries_end_with_an_answer_partial (he : EnvOk env) (hs : ScaleKeepsOrder env) {p p' : Plan Row} {J : SInfo Row}
    (h : Src env .pre p J) (hrep : J.rep = false) (hroot : RootOk env p J) {o} (hq : Ordered false p o)
    (cpu : Plan Row → Plan Row → Except Err (Option Nat)) (bytes : Nat) (hp : dynamicPlan (env.costing cpu bytes) p = .ok p')
    (b : Net Nat α σ) (hroom : Room b) {rows : α → Except Err (List Row)} (herr : Reports rows b) (sched : Nat → Step Nat)
    (hfair : (planNet p' b).Fair sched) :
    ∃ T, ∀ t, T ≤ t → (planNet p' b).Finished (((planNet p' b).inOrder id).runFor sched t)
      ∧ ∀ s, ClientGot rows (((planNet p' b).inOrder id).runFor sched t) p' s → s.Clean → ∃ d, Answer p d ∧ J.eqv.eqv s.rows d := by
  obtain ⟨T, hT⟩ := C77_dynamic_queries_end_partial he h hrep hroot cpu bytes hp b hroom sched hfair
  refine ⟨T, fun t ht => ⟨hT t ht, fun s hgot hclean => ?_⟩⟩
  have hre : (planNet p' ((planNet p' b).inOrder id)).Reached (((planNet p' b).inOrder id).runFor sched t) :=
    Net.runFor_reached _ sched t
  obtain ⟨l, d, _, h2, hd, e⟩ := C78_dynamic_received_so_far_partial he hs h hrep hroot hq cpu bytes hp ((planNet p' b).inOrder id) herr hre hgot
  rw [h2 hclean]
  exact ⟨d, hd, e⟩

/-- **C78** Every execution of a query that is planned while it runs is one of a running query, as in `C78_every_answer_arrives`. -/
theorem C78_dynamic_every_answer_arrives (he : EnvOk env) (hs : ScaleKeepsOrder env) {p p' : Plan Row} {J : SInfo Row}
    (h : Src env .pre p J) (hrep : J.rep = false) (hroot : RootOk env p J) {o} (hq : Ordered false p o)
    (cpu : Plan Row → Plan Row → Except Err (Option Nat)) (bytes : Nat) (hp : dynamicPlan (env.costing cpu bytes) p = .ok p')
    {l : List Row} (hl : Delivers p' l) (b : Net Nat α σ) (hroom : Room b)
    {rows : α → Except Err (List Row)} (msg : Row → α) (hmsg : ∀ x, rows (msg x) = .ok [x]) :
    ∃ (σ' : Type) (n : Net Nat α σ'), n.link = b.link ∧ n.size = b.size ∧ n.error = b.error ∧ ∀ sched, (planNet p' n).Fair sched →
      (∀ t s r w, sched t ≠ .fail s r w) →
      ∃ T, ∀ t, T ≤ t → ∃ s, ClientGot rows (((planNet p' n).inOrder id).runFor sched t) p' s ∧ s.Clean ∧ s.rows = l := by
  obtain ⟨d, hlegal, _⟩ := dynamic_src (he.costing cpu bytes) (h.costing cpu bytes) hrep (hroot.costing cpu bytes) hp
  exact legal_arrives hlegal (dynamic_ordered_any hs hq cpu bytes hp) hl b hroom msg hmsg

/-- **C78** (partial) In order: if the plan promises an order, what the client has received at any time is the beginning of an answer in
that order. -/
theorem C78_dynamic_order_partial (he : EnvOk env) (hs : ScaleKeepsOrder env) {p p' : Plan Row} {J : SInfo Row}
    (h : Src env .pre p J) (hrep : J.rep = false) (hg : J.gathered = true) (ho : J.one = true) {le}
    (hq : Ordered false p (some le)) (cpu : Plan Row → Plan Row → Except Err (Option Nat)) (bytes : Nat)
    (hp : dynamicPlan (env.costing cpu bytes) p = .ok p')
    (b : Net Nat α σ) {rows : α → Except Err (List Row)} (herr : Reports rows b) {st : State Nat α σ} (hr : (planNet p' b).Reached st)
    {s : Seen Row} (hgot : ClientGot rows st p' s) :
    ∃ l d, s.rows <+: l ∧ (s.Clean → s.rows = l) ∧ l.Pairwise (fun x y => le x y = true) ∧ Answer p d ∧ J.eqv.eqv l d := by
  obtain ⟨l, hl, h1, h2⟩ := C78_received_is_right (dynamic_ordered he hs h ho hq cpu bytes hp) herr hr hgot
  obtain ⟨h3, d, hd, e⟩ := (C70_dynamic_order_is_kept_partial he hs h hrep hg ho hq cpu bytes hp).2 l hl
  exact ⟨l, d, h1, h2, h3, hd, e⟩

/-- Non-vacuity: `ORDER BY` over a join, whose stages report a cost of 7: there is a running query that ends and whose client has received
everything, in order. -/
example : ∃ p', dynamicPlan (DD.Tree.Demo.sess.costing (fun _ _ => .ok (some 7)) 2) DD.Tree.Demo.probe = .ok p'
    ∧ ∃ (σ' : Type) (n : Net Nat (Except Err (Nat × Nat)) σ') (sched : Nat → Step Nat), (planNet p' n).Fair sched
    ∧ ∃ T, ∀ t, T ≤ t → (planNet p' n).Finished (((planNet p' n).inOrder id).runFor sched t)
      ∧ ∃ s, ClientGot Demo.rows (((planNet p' n).inOrder id).runFor sched t) p' s ∧ s.Clean
        ∧ s.rows.Pairwise (fun x y => DD.Tree.Demo.byKey x y = true) ∧ ∃ d, Answer DD.Tree.Demo.probe d ∧ s.rows.Perm d := by
  cases hp : dynamicPlan (DD.Tree.Demo.sess.costing (fun _ _ => .ok (some 7)) 2) DD.Tree.Demo.probe with
  | error e =>
    have : (dynamicPlan (DD.Tree.Demo.sess.costing (fun _ _ => .ok (some 7)) 2) DD.Tree.Demo.probe).isOk = true := by decide +kernel
    rw [hp] at this; cases this
  | ok p' =>
    have hroom : Room Demo.idle := Demo.base_room
    have hroot : RootOk DD.Tree.Demo.sess DD.Tree.Demo.probe ⟨.none, true, false, .perm, true⟩ := .inl ⟨rfl, rfl⟩
    obtain ⟨l, hl⟩ := (C70_dynamic_operators_get_sorted_inputs_partial DD.Tree.Demo.sess_ok DD.Tree.Demo.sess_keeps_order
      DD.Tree.Demo.probe_src rfl hroot DD.Tree.Demo.probe_ordered _ _ hp).1
    obtain ⟨σ', n, e1, _, e3, hn⟩ := C78_dynamic_every_answer_arrives DD.Tree.Demo.sess_ok DD.Tree.Demo.sess_keeps_order
      DD.Tree.Demo.probe_src rfl hroot DD.Tree.Demo.probe_ordered _ _ hp hl _ hroom (rows := Demo.rows) Except.ok (fun _ => rfl)
    have hroom' : Room n := by unfold Room; rw [e1]; exact hroom
    have herr : Reports Demo.rows n := by unfold Reports; rw [e3]; exact Demo.idle_reports
    obtain ⟨sched, hfair, hquiet⟩ := quiet_sched (planNet p' n)
    obtain ⟨T1, h1⟩ := hn sched hfair hquiet
    obtain ⟨T2, h2⟩ := C77_dynamic_queries_end_partial DD.Tree.Demo.sess_ok DD.Tree.Demo.probe_src rfl hroot _ _ hp n hroom' sched hfair
    refine ⟨p', rfl, σ', n, sched, hfair, max T1 T2, fun t ht => ⟨h2 t (by omega), ?_⟩⟩
    obtain ⟨s, hgot, hclean, _⟩ := h1 t (by omega)
    have hre : (planNet p' ((planNet p' n).inOrder id)).Reached (((planNet p' n).inOrder id).runFor sched t) :=
      Net.runFor_reached _ sched t
    obtain ⟨l', d, _, h5, h6, hd, e⟩ := C78_dynamic_order_partial DD.Tree.Demo.sess_ok DD.Tree.Demo.sess_keeps_order DD.Tree.Demo.probe_src rfl
      rfl rfl DD.Tree.Demo.probe_ordered _ _ hp ((planNet p' n).inOrder id) herr hre hgot
    have h5 := h5 hclean
    subst h5
    exact ⟨s, hgot, hclean, h6, d, hd, e⟩

end DD.Net
