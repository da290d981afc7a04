/-
C78: every run of a query ends with an answer of the query.
-/
import Verif.Lemmas.NetworkRows
import Verif.Lemmas.NetworkRuns
import Verif.Lemmas.NetworkHonest
import Verif.Props.PlanNetwork
import Verif.Props.Faulty

namespace DD.Net

open DD.Tree DD.Tree.Rec DD.Faulty

variable {Row α σ : Type} {env : Env Row}

theorem planNet_isStream (p : Plan Row) (b : Net Nat α σ) (j : Nat) (x : Site Row) (hx : (planSites p)[j]? = some x) {d : Stream}
    (hd : d ∈ x.streams) : (planNet p b).isStream (1 + j) d = true := by
  have hlt := (List.getElem?_eq_some_iff.mp hx).1
  refine Net.isStream_iff.mpr ⟨List.mem_range.mpr (by omega), by change 1 + j ≠ 0; omega, ?_⟩
  change d ∈ (if 1 + j = 0 then [] else match (planSites p)[1 + j - 1]? with | some x => x.streams | none => [])
  rw [if_neg (by omega), Nat.add_sub_cancel_left, hx]
  exact hd

/-- **C78** What the client has received at any time while a query runs, its tasks working at the same time and sending each other batches
over connections with bounded buffers, any of which may fail at any time, is the beginning of what the plan returns in some execution; if
the client has seen the end of the stream and no error, it is all of it. -/
theorem C78_received_is_right {p : Plan Row} {one : Bool} {o} (ho : Ordered one p o) {b : Net Nat α σ} {rows : α → Except Err (List Row)} (herr : Reports rows b) {st : State Nat α σ} (hr : (planNet p b).Reached st)
    {s : Seen Row} (h : ClientGot rows st p s) : ∃ l, Delivers p l ∧ s.rows <+: l ∧ (s.Clean → s.rows = l) := by
  obtain ⟨a, ha, rfl⟩ := h
  obtain ⟨r, hrun, hc, _⟩ := ha.runs (n := planNet p b) herr hr ho (fun j x hx d hd => planNet_isStream p b j x hx hd)
  exact ⟨_, ⟨r, hrun, rfl⟩, hc.2 _ _ _⟩

/-- **C78** (partial) Planned queries end, and what the client has received in the end is an answer of the query: under every schedule that
tries every step again and again, there is a time from which on the coordinator has read everything it asked for or has dropped it, and if
the client has then seen the end of its stream and no error, it has received an answer of the query, as a single node would return, and
not one row less. Messages and buffers have any size, connections are remote or local, any connections may fail at any time, tasks end what
they send and stop reading whenever they like, for example because of an error, but drop all their inputs if they drop one. -/
theorem C78_queries_end_with_an_answer_partial (he : EnvOk env) (hs : ScaleKeepsOrder env) {p p' : Plan Row} {J : SInfo Row}
    (h : Src env .pre p J) (hrep : J.rep = false) (hroot : RootOk env p J) {o} (hq : Ordered false p o)
    (hp : plan env p = .ok (some p')) (b : Net Nat α σ) (hroom : Room b) {rows : α → Except Err (List Row)} (herr : Reports rows b) (sched : Nat → Step Nat)
    (hfair : (planNet p' b).Fair sched) :
    ∃ T, ∀ t, T ≤ t → (planNet p' b).Finished (((planNet p' b).inOrder id).runFor sched t)
      ∧ ∀ s, ClientGot rows (((planNet p' b).inOrder id).runFor sched t) p' s → s.Clean → ∃ d, Answer p d ∧ J.eqv.eqv s.rows d := by
  obtain ⟨T, hT⟩ := C77_planned_queries_end_partial he h hrep hroot hp b hroom sched hfair
  refine ⟨T, fun t ht => ⟨hT t ht, fun s hgot hclean => ?_⟩⟩
  have hre : (planNet p' ((planNet p' b).inOrder id)).Reached (((planNet p' b).inOrder id).runFor sched t) :=
    Net.runFor_reached _ sched t
  obtain ⟨l, hl, _, h2⟩ := C78_received_is_right (b := (planNet p' b).inOrder id) (plan_ordered hs hq hp) herr hre hgot
  rw [h2 hclean]
  exact (C70_operators_get_sorted_inputs_partial he hs h hrep hroot hq hp).2 l hl

/-- **C78** (partial) At any time before that, what the client has received is the beginning of an answer, whatever the tasks do. -/
theorem C78_received_so_far_partial (he : EnvOk env) (hs : ScaleKeepsOrder env) {p p' : Plan Row} {J : SInfo Row}
    (h : Src env .pre p J) (hrep : J.rep = false) (hroot : RootOk env p J) {o} (hq : Ordered false p o)
    (hp : plan env p = .ok (some p')) (b : Net Nat α σ) {rows : α → Except Err (List Row)} (herr : Reports rows b) {st : State Nat α σ} (hr : (planNet p' b).Reached st)
    {s : Seen Row} (hgot : ClientGot rows st p' s) :
    ∃ l d, s.rows <+: l ∧ (s.Clean → s.rows = l) ∧ Answer p d ∧ J.eqv.eqv l d := by
  obtain ⟨l, hl, h1, h2⟩ := C78_received_is_right (plan_ordered hs hq hp) herr hr hgot
  obtain ⟨d, hd, e⟩ := (C70_operators_get_sorted_inputs_partial he hs h hrep hroot hq hp).2 l hl
  exact ⟨l, d, h1, h2, hd, e⟩

/-- Everything a legal plan may deliver can arrive. -/
theorem legal_arrives {p' : Plan Row} {d eqv} (hlegal : Legal false 1 p' ⟨1, d, false, eqv⟩) (ho : Ordered false p' none)
    {l : List Row} (hl : Delivers p' l) (b : Net Nat α σ) (hroom : Room b)
    {rows : α → Except Err (List Row)} (msg : Row → α) (hmsg : ∀ x, rows (msg x) = .ok [x]) :
    ∃ (σ' : Type) (n : Net Nat α σ'), n.link = b.link ∧ n.size = b.size ∧ n.error = b.error ∧ ∀ sched, (planNet p' n).Fair sched →
      (∀ t s r w, sched t ≠ .fail s r w) →
      ∃ T, ∀ t, T ≤ t → ∃ s, ClientGot rows (((planNet p' n).inOrder id).runFor sched t) p' s ∧ s.Clean ∧ s.rows = l := by
  have hw := legal_wired hlegal (by decide)
  obtain ⟨r, hrun, rfl⟩ := hl
  have hex : Exact 1 [((0 : Nat), (⟨0, 1⟩ : TaskCtx))] := by
    intro x hx
    simp only [List.mem_singleton] at hx
    subst hx
    exact ⟨by decide, rfl⟩
  have hsi : Single [((0 : Nat), (⟨0, 1⟩ : TaskCtx))] := by
    intro t c c' h1 h2
    simp only [List.mem_singleton, Prod.mk.injEq] at h1 h2
    rw [h1.2, h2.2]
  obtain ⟨L, hL⟩ := observed_exists (rows := rows) (σ := List (Nat × Stream)) 0 1 false ho hw (legal_within hlegal (by decide)) hex hsi hrun
  refine ⟨_, (planNet p' b).honest fun s d => (L s d).map msg, rfl, rfl, rfl, fun sched hfair hquiet => ?_⟩
  obtain ⟨T, hT⟩ := Net.honest_ends (L := fun s d => (L s d).map msg) (rank := id) (planNet_ok hw hroom) (List.mem_range.mpr (Nat.succ_pos _)) (planNet_sends hw b) sched
    (fun x hx t => hfair x (by cases x <;> exact hx) t) hquiet
  have hmap : ∀ l : List Row, (l.map msg).map rows = l.map fun x => .ok [x] := by
    intro l
    rw [List.map_map]
    exact List.map_congr_left fun x _ => hmsg x
  refine ⟨T, fun t ht => ?_⟩
  obtain ⟨a, ha, hs1, _⟩ := hL (((planNet p' ((planNet p' b).honest fun s d => (L s d).map msg)).inOrder id).runFor sched t) (fun j x hx d hd => by
    obtain ⟨h1, h2, h3, h4, h5, h6⟩ := hT t ht (1 + j) d (planNet_isStream p' b j x hx hd)
    exact ⟨(congrArg (List.map rows) h1).trans (hmap _), (congrArg (List.map rows) h2).trans (hmap _), h3, h4, h5, h6⟩)
  have hpos : 0 < r.1.parts := by
    rw [runs_parts hrun, legal_parts hlegal (by decide)]
    exact legal_parts_pos hlegal
  have hseen := hs1.2 (0, ⟨0, 1⟩) (by simp) 0 hpos
  refine ⟨_, ⟨a, ha, rfl⟩, ?_⟩
  rw [hseen]
  exact ⟨quiet_clean _, quiet_rows _⟩

/-- **C78** The other way round, every execution of a planned query is one of a running query: for everything the plan may deliver there
are tasks, each of which first reads all its inputs and then sends its rows, such that, whatever the links and sizes of the buffers are and
under every schedule that tries every step again and again and in which no connection fails, the query ends and the client has received
just that and seen the end. `msg` is the message that carries one row. -/
theorem C78_every_answer_arrives (he : EnvOk env) (hs : ScaleKeepsOrder env) {p p' : Plan Row} {J : SInfo Row}
    (h : Src env .pre p J) (hrep : J.rep = false) (hroot : RootOk env p J) {o} (hq : Ordered false p o)
    (hp : plan env p = .ok (some p')) {l : List Row} (hl : Delivers p' l) (b : Net Nat α σ) (hroom : Room b)
    {rows : α → Except Err (List Row)} (msg : Row → α) (hmsg : ∀ x, rows (msg x) = .ok [x]) :
    ∃ (σ' : Type) (n : Net Nat α σ'), n.link = b.link ∧ n.size = b.size ∧ n.error = b.error ∧ ∀ sched, (planNet p' n).Fair sched →
      (∀ t s r w, sched t ≠ .fail s r w) →
      ∃ T, ∀ t, T ≤ t → ∃ s, ClientGot rows (((planNet p' n).inOrder id).runFor sched t) p' s ∧ s.Clean ∧ s.rows = l := by
  obtain ⟨d, hlegal, _⟩ := plan_src he h hrep hroot hp
  exact legal_arrives hlegal (plan_ordered hs hq hp) hl b hroom msg hmsg

/-- **C78** (partial) `ORDER BY`: at any time, the client has received the first rows of the answer, in order; once it has seen the end,
all of them. -/
theorem C78_order_by_partial {le : Row → Row → Bool} (hle : TotalOrder le) (he : EnvOk env) (hs : ScaleKeepsOrder env) {c p' : Plan Row}
    {d one ga o} (h : Src env .pre c ⟨d, one, false, .perm, ga⟩) (hc : Ordered false c o)
    (hp : plan env (orderBy le hle c) = .ok (some p')) (b : Net Nat α σ) {rows : α → Except Err (List Row)} (herr : Reports rows b) {st : State Nat α σ}
    (hr : (planNet p' b).Reached st) {s : Seen Row} (hgot : ClientGot rows st p' s) :
    ∃ a l, Answer c a ∧ IsSorted le a l ∧ s.rows <+: l ∧ (s.Clean → s.rows = l) := by
  obtain ⟨l, hl, h5, h6⟩ := C78_received_is_right (plan_ordered hs (orderBy_ordered hle hc) hp) herr hr hgot
  obtain ⟨a, ha, h7⟩ := (C70_order_by hle he hs h hc hp).2 l hl
  exact ⟨a, l, ha, h7, h5, h6⟩

/-- **C78** (partial) `LIMIT n`, whose tasks stop reading early: once the client has seen the end, it has received `n` rows, or all of them
if there are fewer. -/
theorem C78_limit_partial (he : EnvOk env) (hs : ScaleKeepsOrder env) {n : Nat} {ch h} {c p' : Plan Row} {d one ga o}
    (hc : Src env .pre c ⟨d, one, false, .perm, ga⟩) (hq : Ordered false c o) (h1 : ∀ n deal, c.kind ≠ .otherRepart n deal)
    (h2 : ∀ h n o, c.kind ≠ .hashRepart h n o) (h3 : ∀ n, c.kind ≠ .broadcast n)
    (hp : plan env (gatherLimit n ch h c) = .ok (some p')) (b : Net Nat α σ) {rows : α → Except Err (List Row)} (herr : Reports rows b) {st : State Nat α σ}
    (hr : (planNet p' b).Reached st) {s : Seen Row} (hgot : ClientGot rows st p' s) (hclean : s.Clean) :
    ∃ a, Answer c a ∧ IsLimit 0 n a s.rows := by
  obtain ⟨l, x, _, h6, hx, e⟩ := C78_received_so_far_partial he hs (fetch_src (.inl rfl) limit_whole hc h1 h2 h3) rfl
    (.inl ⟨rfl, rfl⟩) (o := Option.none) (ordered_one hq.weaken (by rintro _ ⟨⟩; rfl)) hp b herr hr hgot
  obtain ⟨a, ha, hm⟩ := answer_one.mp hx
  rw [← h6 hclean] at e
  exact ⟨a, ha, IsLimit.congr hm (.refl _) e.symm⟩

/-- Messages of one row each, or errors. -/
def Demo.rows : Except Err (Nat × Nat) → Except Err (List (Nat × Nat))
  | .ok x => .ok [x]
  | .error e => .error e

/-- Tasks that do nothing, with the connections of `Demo.base`. -/
def Demo.idle : Net Nat (Except Err (Nat × Nat)) Unit where
  stages := []
  root := 0
  parent := id
  depth := id
  streams := fun _ => []
  link := Demo.base.link
  size := fun _ => 1
  error := fun s _ _ => .error (.user s)
  mem := ()
  first := fun _ _ => []
  recv := fun m _ _ _ => (m, fun _ => [])
  wants := fun _ _ _ => true
  mayClose := fun _ _ _ => false
  mayDrop := fun _ _ _ => false

theorem Demo.idle_reports : Reports Demo.rows Demo.idle := fun s _ _ => ⟨.user s, rfl⟩

/-- The theorems apply to a scan in three tasks with the default buffers: it ends, and whatever it delivers can arrive. -/
example : ∃ p', plan DD.Tree.Demo.sess (DD.Faulty.Demo.scan .none) = .ok (some p') ∧ ∃ l, Delivers p' l
    ∧ ∃ (σ' : Type) (n : Net Nat (Except Err (Nat × Nat)) σ') (sched : Nat → Step Nat),
    Room n ∧ Reports Demo.rows n ∧ (planNet p' n).Fair sched ∧ ∃ T, ∀ t, T ≤ t → (planNet p' n).Finished (((planNet p' n).inOrder id).runFor sched t)
      ∧ (∃ s, ClientGot Demo.rows (((planNet p' n).inOrder id).runFor sched t) p' s ∧ s.Clean ∧ s.rows = l)
      ∧ ∀ s, ClientGot Demo.rows (((planNet p' n).inOrder id).runFor sched t) p' s → s.Clean →
        ∃ d, Answer (DD.Faulty.Demo.scan .none) d ∧ s.rows.Perm d := by
  have hp := DD.Faulty.Demo.scan_plan
  obtain ⟨l, hl⟩ := (plan_ordered DD.Tree.Demo.sess_keeps_order DD.Faulty.Demo.scan_ordered hp).exists_delivers
  have hroom : Room Demo.idle := Demo.base_room
  obtain ⟨σ', n, e1, _, e3, hn⟩ := C78_every_answer_arrives DD.Tree.Demo.sess_ok DD.Tree.Demo.sess_keeps_order DD.Faulty.Demo.scan_src rfl
    (.inl ⟨rfl, rfl⟩) DD.Faulty.Demo.scan_ordered hp hl _ hroom (rows := Demo.rows) Except.ok (fun _ => rfl)
  have hroom' : Room n := by unfold Room; rw [e1]; exact hroom
  have herr : Reports Demo.rows n := by unfold Reports; rw [e3]; exact Demo.idle_reports
  obtain ⟨sched, hfair, hquiet⟩ := quiet_sched (planNet (DD.Faulty.Demo.scanPlan .none) n)
  obtain ⟨T1, h1⟩ := hn sched hfair hquiet
  obtain ⟨T2, h2⟩ := C78_queries_end_with_an_answer_partial DD.Tree.Demo.sess_ok DD.Tree.Demo.sess_keeps_order DD.Faulty.Demo.scan_src rfl
    (.inl ⟨rfl, rfl⟩) DD.Faulty.Demo.scan_ordered hp n hroom' herr sched hfair
  exact ⟨_, hp, l, hl, σ', n, sched, hroom', herr, hfair, max T1 T2,
    fun t ht => ⟨(h2 t (by omega)).1, h1 t (by omega), (h2 t (by omega)).2⟩⟩

/-- And to `ORDER BY` over a broadcast join. -/
example (b : Net Nat (Except Err (Nat × Nat)) σ) (hroom : Room b) (herr : Reports Demo.rows b) :
    ∃ p', plan DD.Tree.Demo.sess (orderBy DD.Tree.Demo.byKey DD.Tree.Demo.byKey_total DD.Tree.Demo.input) = .ok (some p')
    ∧ (∃ (σ' : Type) (n : Net Nat (Except Err (Nat × Nat)) σ'), n.link = b.link ∧ n.size = b.size ∧ ∃ sched T s,
        ClientGot Demo.rows (((planNet p' n).inOrder id).runFor sched T) p' s ∧ s.Clean)
    ∧ ∀ st, (planNet p' b).Reached st → ∀ s, ClientGot Demo.rows st p' s →
      ∃ a l, Answer DD.Tree.Demo.input a ∧ IsSorted DD.Tree.Demo.byKey a l ∧ s.rows <+: l ∧ (s.Clean → s.rows = l) := by
  obtain ⟨p', hp⟩ := planned_of (env := DD.Tree.Demo.sess)
    (p := orderBy DD.Tree.Demo.byKey DD.Tree.Demo.byKey_total DD.Tree.Demo.input) (by decide +kernel)
  obtain ⟨l, hl⟩ := (C70_order_by _ DD.Tree.Demo.sess_ok DD.Tree.Demo.sess_keeps_order DD.Tree.Demo.input_src DD.Tree.Demo.input_ordered hp).1
  refine ⟨p', hp, ?_, fun st hr s hs => C78_order_by_partial _ DD.Tree.Demo.sess_ok DD.Tree.Demo.sess_keeps_order DD.Tree.Demo.input_src
    DD.Tree.Demo.input_ordered hp b herr hr hs⟩
  obtain ⟨σ', n, e1, e2, _, hn⟩ := C78_every_answer_arrives DD.Tree.Demo.sess_ok DD.Tree.Demo.sess_keeps_order
    (orderBy_src DD.Tree.Demo.byKey_total DD.Tree.Demo.input_src) rfl (.inl ⟨rfl, rfl⟩)
    (orderBy_ordered DD.Tree.Demo.byKey_total DD.Tree.Demo.input_ordered) hp hl b hroom (rows := Demo.rows) Except.ok (fun _ => rfl)
  obtain ⟨sched, hfair, hquiet⟩ := quiet_sched (planNet p' n)
  obtain ⟨T, hT⟩ := hn sched hfair hquiet
  obtain ⟨s, h1, h2, _⟩ := hT T (Nat.le_refl _)
  exact ⟨σ', n, e1, e2, sched, T, s, h1, h2⟩

end DD.Net
