/-
C71: a query that ends without an error has returned every row, whatever fails on the way; and no wrong row, even if it ends with
an error.
-/
import Verif.Lemmas.FaultyQuiet
import Verif.Props.OrderDynamic
import Verif.Props.Choice

namespace DD.Faulty

open DD.Limit DD.Tree

variable {Row : Type} {env : Env Row}

/-- **C71** What a client sees of any plan whose operators are given the orders they rely on, whatever fails, is the beginning of what the plan returns in some execution in which
nothing fails; if the client sees the end of the stream and no error, it is all of it. Missing: panics of the tasks that
move batches, for which it is false (`C71_panic_truncates_false`). -/
theorem C71_failures_only_cut_partial {p : Plan Row} {one : Bool} {o} (ho : Ordered one p o) {s : Seen Row} (h : ClientSees false p s) :
    ∃ l, Delivers p l ∧ s.rows <+: l ∧ (s.Clean → s.rows = l) := by
  obtain ⟨a, ha, rfl⟩ := h
  obtain ⟨r, hr, hc, _⟩ := ha.runs ho
  exact ⟨_, ⟨r, hr, rfl⟩, hc.2 _ _ _⟩

/-- Everything a plan may return if nothing fails may be seen, whether or not things may fail. -/
theorem C71_answers_are_seen (panics : Bool) {p : Plan Row} {l : List Row} (h : Delivers p l) :
    ∃ s, ClientSees panics p s ∧ s.Clean ∧ s.rows = l := by
  obtain ⟨r, hr, rfl⟩ := h
  exact ⟨_, ⟨_, Runs.attempts panics hr, rfl⟩, quiet_clean _, quiet_rows _⟩

/-- **C71** A distributed query that ended without an error has returned an answer of the query, as a single node would: not one row
less. If it failed, what it returned before is still the beginning of an answer. Workers may die, connections break and operators fail
at any point, and consumers may stop reading. Missing: panics, and the queries whose plans are wrong even if nothing fails (C08,
C70). -/
theorem C71_clean_end_is_an_answer_partial (he : EnvOk env) (hs : ScaleKeepsOrder env) {p p' : Plan Row} {J : SInfo Row}
    (h : Src env .pre p J) (hrep : J.rep = false) (hroot : RootOk env p J) {o} (hq : Ordered false p o)
    (hp : plan env p = .ok (some p')) :
    (∃ s, ClientSees false p' s ∧ s.Clean) ∧ ∀ s, ClientSees false p' s →
      ∃ l d, s.rows <+: l ∧ (s.Clean → s.rows = l) ∧ Answer p d ∧ J.eqv.eqv l d := by
  obtain ⟨⟨l, hl⟩, h2⟩ := C70_operators_get_sorted_inputs_partial he hs h hrep hroot hq hp
  obtain ⟨s, h3, h4, _⟩ := C71_answers_are_seen false hl
  refine ⟨⟨s, h3, h4⟩, fun s hsee => ?_⟩
  obtain ⟨l, hl, h5, h6⟩ := C71_failures_only_cut_partial (plan_ordered hs hq hp) hsee
  obtain ⟨d, hd, e⟩ := h2 l hl
  exact ⟨l, d, h5, h6, hd, e⟩

/-- **C71** Likewise for a query that promises an order: the rows come in that order, also those before an error. -/
theorem C71_sorted_until_it_fails_partial (he : EnvOk env) (hs : ScaleKeepsOrder env) {p p' : Plan Row} {J : SInfo Row}
    (h : Src env .pre p J) (hrep : J.rep = false) (hg : J.gathered = true) (ho : J.one = true) {le}
    (hq : Ordered false p (some le)) (hp : plan env p = .ok (some p')) {s : Seen Row} (hc : ClientSees false p' s) :
    s.rows.Pairwise (fun x y => le x y = true)
    ∧ ∃ l d, s.rows <+: l ∧ (s.Clean → s.rows = l) ∧ Answer p d ∧ J.eqv.eqv l d := by
  obtain ⟨_, h2⟩ := C70_promised_order_is_kept_partial he hs h hrep hg ho hq hp
  obtain ⟨l, hl, h5, h6⟩ := C71_failures_only_cut_partial (plan_ordered hs hq hp) hc
  obtain ⟨h7, d, hd, e⟩ := h2 l hl
  exact ⟨h7.sublist h5.sublist, l, d, h5, h6, hd, e⟩

/-- **C71** `ORDER BY`: a query that ended without an error returned all rows, sorted; one that failed returned the first ones. -/
theorem C71_order_by_partial {le : Row → Row → Bool} (hle : TotalOrder le) (he : EnvOk env) (hs : ScaleKeepsOrder env) {c p' : Plan Row}
    {d one ga o} (h : Src env .pre c ⟨d, one, false, .perm, ga⟩) (hc : Ordered false c o)
    (hp : plan env (orderBy le hle c) = .ok (some p')) {s : Seen Row} (hsee : ClientSees false p' s) :
    ∃ a l, Answer c a ∧ IsSorted le a l ∧ s.rows <+: l ∧ (s.Clean → s.rows = l) := by
  obtain ⟨l, hl, h5, h6⟩ := C71_failures_only_cut_partial (plan_ordered hs (orderBy_ordered hle hc) hp) hsee
  obtain ⟨a, ha, h7⟩ := (C70_order_by hle he hs h hc hp).2 l hl
  exact ⟨a, l, ha, h7, h5, h6⟩

/-- **C71** `LIMIT n`: a query that ended without an error returned `n` rows, or all of them if there are fewer, although tasks may have
failed whose rows it did not need. -/
theorem C71_limit_partial (he : EnvOk env) (hs : ScaleKeepsOrder env) {n : Nat} {ch h} {c p' : Plan Row} {d one ga o}
    (hc : Src env .pre c ⟨d, one, false, .perm, ga⟩) (hq : Ordered false c o) (h1 : ∀ n deal, c.kind ≠ .otherRepart n deal)
    (h2 : ∀ h n o, c.kind ≠ .hashRepart h n o) (h3 : ∀ n, c.kind ≠ .broadcast n)
    (hp : plan env (gatherLimit n ch h c) = .ok (some p')) {s : Seen Row} (hsee : ClientSees false p' s) (hclean : s.Clean) :
    ∃ a, Answer c a ∧ IsLimit 0 n a s.rows := by
  obtain ⟨l, x, _, h6, hx, e⟩ := (C71_clean_end_is_an_answer_partial he hs (fetch_src (.inl rfl) limit_whole hc h1 h2 h3) rfl
    (.inl ⟨rfl, rfl⟩) (o := none) (ordered_one hq.weaken (by rintro _ ⟨⟩; rfl)) hp).2 s hsee
  obtain ⟨a, ha, hm⟩ := answer_one.mp hx
  rw [← h6 hclean] at e
  exact ⟨a, ha, IsLimit.congr hm (.refl _) e.symm⟩

/-- **C71** With task counts chosen while the query runs. -/
theorem C71_dynamic_clean_end_partial (he : EnvOk env) (hs : ScaleKeepsOrder env) {p p' : Plan Row} {J : SInfo Row}
    (h : Src env .pre p J) (hrep : J.rep = false) (hg : J.gathered = true) (ho : J.one = true) {le}
    (hq : Ordered false p (some le)) (cpu : Plan Row → Plan Row → Except Err (Option Nat)) (bytes : Nat)
    (hp : dynamicPlan (env.costing cpu bytes) p = .ok p') :
    (∃ s, ClientSees false p' s ∧ s.Clean) ∧ ∀ s, ClientSees false p' s →
      s.rows.Pairwise (fun x y => le x y = true)
      ∧ ∃ l d, s.rows <+: l ∧ (s.Clean → s.rows = l) ∧ Answer p d ∧ J.eqv.eqv l d := by
  obtain ⟨⟨l, hl⟩, h2⟩ := C70_dynamic_order_is_kept_partial he hs h hrep hg ho hq cpu bytes hp
  obtain ⟨s, h3, h4, _⟩ := C71_answers_are_seen false hl
  refine ⟨⟨s, h3, h4⟩, fun s hsee => ?_⟩
  obtain ⟨l, hl, h5, h6⟩ := C71_failures_only_cut_partial (dynamic_ordered he hs h ho hq cpu bytes hp) hsee
  obtain ⟨h7, d, hd, e⟩ := h2 l hl
  exact ⟨h7.sublist h5.sublist, l, d, h5, h6, hd, e⟩

/-! ### Executions in which something fails -/

theorem Attempts.of_kids {panics : Bool} {k : Kind Row} {tc : TaskCount} {cs : List (Plan Row)} {as} (hall : AttemptsAll panics cs as)
    {seen : Bool → TaskCtx → Nat → Seen Row} (h : ∀ w ctx q, Shows panics k as w ctx q (seen w ctx q)) :
    Attempts panics (.node k tc cs) (⟨(Plan.node k tc cs).parts, seen⟩,
      if k.isHead then (as.getD 0 (.none, .none)).1 else ⟨(Plan.node k tc cs).parts, seen⟩) := by
  rw [Attempts]
  exact ⟨as, hall, rfl, h, rfl⟩

namespace Demo

open DD.Tree.Demo

/-- Reading a table, in three tasks. -/
def table : Plan (Nat × Nat) := fresh (.leaf [[(0, 1), (1, 2), (3, 3)]]) []

def scan (fetch : Option (Op (Nat × Nat))) : Plan (Nat × Nat) := fresh (.coalesce fetch) [table]

def scanLeaf : Kind (Nat × Nat) := .distLeaf [[(0, 1), (1, 2), (3, 3)]] [[[(0, 1), (3, 3)]], [[(1, 2)]], [[]]]

def scanPlan (fetch : Option (Op (Nat × Nat))) : Plan (Nat × Nat) :=
  .node (.coalesce fetch) (.maximum 1) [.node (.netCoalesce 3 3 1) (.maximum 1) [.node scanLeaf (.desired 3) []]]

theorem scan_plan : plan sess (scan none) = .ok (some (scanPlan none)) := by with_unfolding_all rfl

/-- What is seen of a boundary over the scan if the streams from the tasks are seen as `f` says. -/
def boundary (f : Pull → Seen (Nat × Nat)) (_ : Bool) (ctx : TaskCtx) (q : Nat) : Seen (Nat × Nat) :=
  match (CoalesceExec.mk 3 3).execute ctx q with
  | .error e => .failed e
  | .ok [] => .empty
  | .ok (pull :: _) => f pull

/-- The rows of the tasks. -/
def rowsIn (t q : Nat) : List (Nat × Nat) := ([[[(0, 1), (3, 3)]], [[(1, 2)]], [[]]].getD t []).getD q []

theorem scan_attempts {panics : Bool} {fetch} {f : Pull → Seen (Nat × Nat)} {out : Seen (Nat × Nat)}
    (hn : ∀ g, fetch = some g → g.needs 0 = none) (hf : ∀ pull, Carried panics (fun q => quiet (rowsIn pull.task q)) pull (f pull))
    (ho : ∀ m : Nat → List (Nat × Nat), (∀ i < 3, (f ⟨i, 0, 0, 1⟩).Of (m i)) →
      ∃ l, Interleaved [m 0, m 1, m 2] l ∧ out.Of (streamFetch fetch false ⟨0, 1⟩ l)) :
    ClientSees panics (scanPlan fetch) out := by
  have h0 : Attempts panics (.node scanLeaf (.desired 3) []) (quietBoth (runBoth (.node scanLeaf (.desired 3) []))) := by
    refine Runs.attempts panics (runs_node.mpr ⟨[], ⟨rfl, by simp⟩, rfl, fun w ctx q => rfl, rfl⟩)
  have h1 := Attempts.of_kids (panics := panics) (k := .netCoalesce 3 3 1) (tc := .maximum 1) (cs := [.node scanLeaf (.desired 3) []])
    (as := [quietBoth (runBoth (.node scanLeaf (.desired 3) []))])
    (by rw [AttemptsAll]; exact ⟨_, [], rfl, h0, by rw [AttemptsAll]⟩) (seen := boundary f) (by
      intro w ctx q
      simp only [Shows, boundary]
      cases (CoalesceExec.mk 3 3).execute ctx q with
      | error e => exact .inl rfl
      | ok pulls =>
        match pulls with
        | [] => exact passed_refl _
        | pull :: rest => exact hf pull)
  classical
  have h2 := Attempts.of_kids (panics := panics) (k := .coalesce fetch) (tc := .maximum 1)
    (cs := [.node (.netCoalesce 3 3 1) (.maximum 1) [.node scanLeaf (.desired 3) []]])
    (by rw [AttemptsAll]; exact ⟨_, [], rfl, h1, by rw [AttemptsAll]⟩)
    (seen := fun w ctx q => if w = false ∧ ctx = ⟨0, 1⟩ ∧ q = 0 then out else ⟨[], false⟩) (by
      intro w ctx q
      show ∀ rs, Goes _ rs → _
      intro rs hg _
      split
      · rename_i hh
        obtain ⟨rfl, rfl, rfl⟩ := hh
        obtain ⟨hc1, hc2⟩ := (getD_goes hg 0).1
        obtain ⟨l, hl, hof⟩ := ho ((rs.getD 0 (.none, .none)).1.exec false ⟨0, 1⟩) (by
          intro i hi
          have := hc2 false ⟨0, 1⟩ i
          match i, hi with
          | 0, _ => exact this
          | 1, _ => exact this
          | 2, _ => exact this)
        refine ⟨_, ?_, hof⟩
        simp only [Emits, ↓reduceIte]
        refine ⟨l, ?_, rfl⟩
        rw [hc1]
        exact hl
      · obtain ⟨l, hl⟩ := emits_exists (k := .coalesce fetch) (a := fun _ => none) hn rs w ctx q
        exact ⟨l, hl, List.nil_prefix, by rintro ⟨h, _⟩; cases h⟩)
  refine ⟨_, h2, ?_⟩
  simp

/-- What the worker with task 1 has died of. -/
def died : Err := .user 7

/-- The worker with task 1 dies before it has sent anything: the client gets the rows of the first task, and an error. -/
theorem scan_fails : ClientSees false (scanPlan none) ⟨[.ok [(0, 1), (3, 3)], .error died], true⟩ := by
  refine scan_attempts (f := fun pull => if pull.task = 1 then .failed died else quiet (rowsIn pull.task pull.partition)) (by simp) ?_ ?_
  · intro pull
    split
    · exact .failed _
    · exact .inProcess (passed_refl _)
  · intro m hm
    have h0 : m 0 = [(0, 1), (3, 3)] := quiet_of (hm 0 (by decide))
    obtain ⟨l, hl⟩ := Interleaved.exists [[], m 1, m 2]
    refine ⟨[(0, 1), (3, 3)] ++ l, Interleaved.append (i := 0) (t := []) (by rw [h0]; rfl) hl, ⟨l, rfl⟩, ?_⟩
    rintro ⟨_, h⟩
    exact absurd (by simp) (h died)

/-- `LIMIT 2`. -/
def two : Op (Nat × Nat) := .choice (IsLimit 0 2) (fun _ _ _ a => a.take 2) fun _ _ _ a => ⟨by simp, a.drop 2, by simp⟩

/-- The worker with task 1 dies, but `LIMIT 2` has its rows already: the query succeeds. -/
theorem limit_succeeds : ClientSees false (scanPlan (some two)) ⟨[.ok [(0, 1), (3, 3)]], true⟩ := by
  refine scan_attempts (f := fun pull => if pull.task = 1 then .failed died else quiet (rowsIn pull.task pull.partition))
    (by rintro _ ⟨⟩; rfl) ?_ ?_
  · intro pull
    split
    · exact .failed _
    · exact .inProcess (passed_refl _)
  · intro m hm
    have h0 : m 0 = [(0, 1), (3, 3)] := quiet_of (hm 0 (by decide))
    obtain ⟨l, hl⟩ := Interleaved.exists [[], m 1, m 2]
    refine ⟨[(0, 1), (3, 3)] ++ l, Interleaved.append (i := 0) (t := []) (by rw [h0]; rfl) hl, ?_⟩
    change Seen.Of _ ([(0, 1), (3, 3)])
    exact ⟨List.prefix_rfl, fun _ => rfl⟩

/-- The response of task 0, if forwarding its partition panics after the first batch. -/
def cutResponse : Demux.Cfg (List (Nat × Nat)) := ⟨0, 1, 10, none, [.msg 0 1 [(0, 1)]]⟩

theorem scan_cut : ClientSees true (scanPlan none) ⟨[.ok [(0, 1)], .ok [(1, 2)]], true⟩ := by
  refine scan_attempts (f := fun pull => if pull.task = 0 ∧ pull.partition = 0 ∧ pull.lo = 0 ∧ pull.hi = 1 then ⟨[.ok [(0, 1)]], true⟩
    else quiet (rowsIn pull.task pull.partition)) (by simp) ?_ ?_
  · intro pull
    split
    · rename_i h
      obtain ⟨t, q, lo, hi⟩ := pull
      obtain ⟨rfl, rfl, rfl, rfl⟩ := h
      exact .grpc 2 (fun _ => 1) [.forward 0, .crash 0, .take 0, .finish] cutResponse [.poll 0, .task, .task, .poll 0, .task, .poll 0]
        rfl rfl (Nat.le_refl _) Nat.one_pos (by rintro ⟨⟩) (fun _ _ _ => rfl) (.inl ⟨rfl, rfl⟩)
    · exact .inProcess (passed_refl _)
  · intro m hm
    have h0 : m 0 = [(0, 1)] := ((hm 0 (by decide)).2 ⟨rfl, by simp⟩).symm
    have h1 : m 1 = [(1, 2)] := quiet_of (hm 1 (by decide))
    have h2 : m 2 = [] := quiet_of (hm 2 (by decide))
    rw [h0, h1, h2]
    refine ⟨[(0, 1), (1, 2)], .step (i := 0) (t := []) rfl (fun _ _ _ _ => True.intro)
      (.step (i := 1) (t := []) rfl (fun _ _ _ _ => True.intro) (.done ?_)), List.prefix_rfl, fun _ => rfl⟩
    decide

theorem table_src : Src sess .pre table ⟨none, true, false, .perm, false⟩ := leaf_src _ true (by simp) (by simp)

theorem scan_src : Src sess .pre (scan none) ⟨none, true, false, .perm, true⟩ :=
  .gather (.inl rfl) (by rintro _ _ ⟨⟩) (fun _ => ⟨by rintro _ _ _ ⟨⟩, by rintro _ ⟨⟩⟩) (by simp) table_src

theorem scan_ordered : Ordered false (scan none) none := ordered_one (leaf_any _) (by rintro _ ⟨⟩)

end Demo

/-- The theorems apply to a query whose second worker dies: the client gets an error and two of the three rows. -/
example : plan DD.Tree.Demo.sess (Demo.scan none) = .ok (some (Demo.scanPlan none))
    ∧ ClientSees false (Demo.scanPlan none) ⟨[.ok [(0, 1), (3, 3)], .error Demo.died], true⟩
    ∧ ∀ s, ClientSees false (Demo.scanPlan none) s → ∃ l d, s.rows <+: l ∧ (s.Clean → s.rows = l) ∧ Answer (Demo.scan none) d ∧ l.Perm d :=
  ⟨Demo.scan_plan, Demo.scan_fails, (C71_clean_end_is_an_answer_partial DD.Tree.Demo.sess_ok DD.Tree.Demo.sess_keeps_order Demo.scan_src rfl
    (.inl ⟨rfl, rfl⟩) Demo.scan_ordered Demo.scan_plan).2⟩

/-- And to one that does not need the rows of the worker that dies. -/
example : ∃ p', plan DD.Tree.Demo.sess (gatherLimit 2 (fun _ _ _ a => a.take 2) (fun _ _ _ a => ⟨by simp, a.drop 2, by simp⟩) Demo.table) = .ok (some p')
    ∧ ClientSees false p' ⟨[.ok [(0, 1), (3, 3)]], true⟩
    ∧ ∃ a, Answer Demo.table a ∧ IsLimit 0 2 a [(0, 1), (3, 3)] := by
  have hp : plan DD.Tree.Demo.sess (gatherLimit 2 (fun _ _ _ a => a.take 2) (fun _ _ _ a => ⟨by simp, a.drop 2, by simp⟩) Demo.table)
      = .ok (some (Demo.scanPlan (some Demo.two))) := by with_unfolding_all rfl
  exact ⟨_, hp, Demo.limit_succeeds, C71_limit_partial DD.Tree.Demo.sess_ok DD.Tree.Demo.sess_keeps_order Demo.table_src (DD.Tree.Demo.leaf_any _)
    (by rintro _ _ ⟨⟩) (by rintro _ _ _ ⟨⟩) (by rintro _ ⟨⟩) hp Demo.limit_succeeds ⟨rfl, by simp⟩⟩

/-- `ORDER BY` over a broadcast join. -/
example : ∃ p', plan DD.Tree.Demo.sess (orderBy DD.Tree.Demo.byKey DD.Tree.Demo.byKey_total DD.Tree.Demo.input) = .ok (some p')
    ∧ (∃ s, ClientSees false p' s ∧ s.Clean)
    ∧ ∀ s, ClientSees false p' s → ∃ a l, Answer DD.Tree.Demo.input a ∧ IsSorted DD.Tree.Demo.byKey a l ∧ s.rows <+: l ∧ (s.Clean → s.rows = l) := by
  obtain ⟨p', hp⟩ := planned_of (env := DD.Tree.Demo.sess)
    (p := orderBy DD.Tree.Demo.byKey DD.Tree.Demo.byKey_total DD.Tree.Demo.input) (by decide +kernel)
  obtain ⟨l, hl⟩ := (C70_order_by _ DD.Tree.Demo.sess_ok DD.Tree.Demo.sess_keeps_order DD.Tree.Demo.input_src DD.Tree.Demo.input_ordered hp).1
  obtain ⟨s, h1, h2, _⟩ := C71_answers_are_seen false hl
  exact ⟨p', hp, ⟨s, h1, h2⟩, fun s hs => C71_order_by_partial _ DD.Tree.Demo.sess_ok DD.Tree.Demo.sess_keeps_order DD.Tree.Demo.input_src
    DD.Tree.Demo.input_ordered hp hs⟩

/-- A merge of sorted scans. -/
example : ∃ p', plan DD.Tree.Demo.sess DD.Tree.Demo.probe = .ok (some p')
    ∧ ∀ s, ClientSees false p' s → s.rows.Pairwise (fun x y => DD.Tree.Demo.byKey x y = true) := by
  obtain ⟨p', hp⟩ := planned_of (env := DD.Tree.Demo.sess) (p := DD.Tree.Demo.probe) (by decide +kernel)
  exact ⟨p', hp, fun s hs => (C71_sorted_until_it_fails_partial DD.Tree.Demo.sess_ok DD.Tree.Demo.sess_keeps_order DD.Tree.Demo.probe_src
    rfl rfl rfl DD.Tree.Demo.probe_ordered hp hs).1⟩

/-- The same with task counts chosen while the query runs. -/
example : ∃ p', dynamicPlan (DD.Tree.Demo.sess.costing (fun _ _ => .ok (some 7)) 2) DD.Tree.Demo.probe = .ok p'
    ∧ (∃ s, ClientSees false p' s ∧ s.Clean)
    ∧ ∀ s, ClientSees false p' s → s.rows.Pairwise (fun x y => DD.Tree.Demo.byKey x y = true)
      ∧ ∃ l d, s.rows <+: l ∧ (s.Clean → s.rows = l) ∧ Answer DD.Tree.Demo.probe d ∧ l.Perm d := by
  cases hp : dynamicPlan (DD.Tree.Demo.sess.costing (fun _ _ => .ok (some 7)) 2) DD.Tree.Demo.probe with
  | error e =>
    have : (dynamicPlan (DD.Tree.Demo.sess.costing (fun _ _ => .ok (some 7)) 2) DD.Tree.Demo.probe).isOk = true := by decide +kernel
    rw [hp] at this; cases this
  | ok p' => exact ⟨p', rfl, C71_dynamic_clean_end_partial DD.Tree.Demo.sess_ok DD.Tree.Demo.sess_keeps_order DD.Tree.Demo.probe_src rfl rfl rfl
      DD.Tree.Demo.probe_ordered _ _ hp⟩

/-- **C71** is false if the task that forwards a partition panics: its queue closes as if the partition had ended
(`/repo/src/protocol/grpc/spawn_select_all.rs:14-63`), so the query ends without an error and without some of its rows. -/
theorem C71_panic_truncates_false : ∃ (env : Env (Nat × Nat)) (p p' : Plan (Nat × Nat)) (s : Seen (Nat × Nat)) (J : SInfo (Nat × Nat)),
    EnvOk env ∧ ScaleKeepsOrder env ∧ Src env .pre p J ∧ J.rep = false ∧ J.eqv = .perm ∧ RootOk env p J ∧ Ordered false p none
    ∧ plan env p = .ok (some p')
    ∧ ClientSees true p' s ∧ s.Clean ∧ ¬ ∃ d, Answer p d ∧ s.rows.Perm d := by
  refine ⟨DD.Tree.Demo.sess, Demo.scan none, _, _, _, DD.Tree.Demo.sess_ok, DD.Tree.Demo.sess_keeps_order, Demo.scan_src, rfl, rfl, .inl ⟨rfl, rfl⟩,
    Demo.scan_ordered, Demo.scan_plan, Demo.scan_cut, ⟨rfl, by simp⟩, ?_⟩
  rintro ⟨d, hd, e⟩
  simp only [Demo.scan, Demo.table, fresh] at hd
  rw [answer_pass (fun _ _ => Iff.rfl)] at hd
  obtain ⟨_, _, rfl⟩ := answer_node.mp hd
  exact absurd e.length_eq (by decide)

end DD.Faulty
