/-
Statements that write, when things go wrong (C94 with C70 and C71).
-/
import Verif.Props.Sink
import Verif.Props.Faulty

namespace DD.Tree

open DD.Faulty

variable {Row : Type} {env : Env Row}

theorem Writes.hom {g : Op Row} (hw : Writes g) : Hom (.perm : RowEq Row) .perm g where
  nil x h := by rw [(hw.may _ _).1 h]; exact .refl _
  append a b x y hx hy := by
    rw [(hw.may _ _).1 hx, (hw.may _ _).1 hy]
    exact ⟨a ++ b, (hw.may _ _).2 rfl, .refl _⟩
  congr a b x h hx := by
    rw [(hw.may _ _).1 hx]
    exact ⟨b, (hw.may _ _).2 rfl, h⟩

theorem writing_src {g : Op Row} (hw : Writes g) {c : Plan Row} {d} (h : Src env .pre c ⟨d, true, false, .perm, true⟩) :
    Src env .pre (writing g c) ⟨none, true, false, .perm, true⟩ :=
  .opLocal hw.hom (by rintro r ⟨⟩) (by rintro _ _ ⟨⟩) h

theorem writing_ordered {g : Op Row} {c : Plan Row} {o} (hc : Ordered false c o) (hn : ∀ i, g.needs i = none ∨ g.needs i = o) :
    Ordered false (writing g c) g.order := by
  refine .node (fun _ => o) (fun i c' e => ?_) ⟨fun i => (hn i).imp id Eq.symm, by rintro r ⟨⟩⟩ fun le h => h
  match i with
  | 0 => cases e; exact hc
  | i + 1 => simp at e

/-- **C94** Workers may die, connections break and operators fail at any point. What the statement has written by then (`s`) is the
beginning of an answer of the query, so that no row is written that is not in the answer or more often than it is; and if the statement
ends without an error, all of the answer is written. Missing: panics (`C71_panic_truncates_false`), and queries whose last
stage is not gathered. -/
theorem C94_failures_partial (he : EnvOk env) (hs : ScaleKeepsOrder env) {g : Op Row} (hw : Writes g) {c p' : Plan Row} {d o}
    (h : Src env .pre c ⟨d, true, false, .perm, true⟩) (hc : Ordered false c o) (hn : ∀ i, g.needs i = none ∨ g.needs i = o)
    (hp : plan env (writing g c) = .ok (some p')) {s : Seen Row} (hsee : ClientSees false p' s) :
    ∃ l a, s.rows <+: l ∧ (s.Clean → s.rows = l) ∧ Answer c a ∧ l.Perm a := by
  obtain ⟨l, a, h1, h2, h3, h4⟩ := (C71_clean_end_is_an_answer_partial he hs (writing_src hw h) rfl (.inl ⟨rfl, rfl⟩)
    (writing_ordered hc hn) hp).2 s hsee
  exact ⟨l, a, h1, h2, by rwa [answer_writing hw] at h3, h4⟩

/-- **C94** The same if task counts are chosen while the statement runs. -/
theorem C94_failures_dynamic_partial (he : EnvOk env) (hs : ScaleKeepsOrder env) {g : Op Row} (hw : Writes g) {c p' : Plan Row} {d o}
    (h : Src env .pre c ⟨d, true, false, .perm, true⟩) (hc : Ordered false c o) (hn : ∀ i, g.needs i = none ∨ g.needs i = o)
    (cpu : Plan Row → Plan Row → Except Err (Option Nat)) (bytes : Nat)
    (hp : dynamicPlan (env.costing cpu bytes) (writing g c) = .ok p') {s : Seen Row} (hsee : ClientSees false p' s) :
    ∃ l a, s.rows <+: l ∧ (s.Clean → s.rows = l) ∧ Answer c a ∧ l.Perm a := by
  have hq := writing_ordered hc hn
  obtain ⟨l, hl, h5, h6⟩ := C71_failures_only_cut_partial (dynamic_ordered_any hs hq cpu bytes hp) hsee
  obtain ⟨a, h3, h4⟩ := (C70_dynamic_operators_get_sorted_inputs_partial he hs (writing_src hw h) rfl (.inl ⟨rfl, rfl⟩) hq cpu bytes
    hp).2 l hl
  exact ⟨l, a, h5, h6, by rwa [answer_writing hw] at h3, h4⟩

/-- **C94** A statement whose query has an `ORDER BY` writes the rows in this order, whatever arrives first and whatever fails.
Missing: panics. -/
theorem C94_order_by_partial (he : EnvOk env) (hs : ScaleKeepsOrder env) {g : Op Row} (hw : Writes g) {le : Row → Row → Bool}
    (hle : TotalOrder le) (hg : g.order = some le) (hn : ∀ i, g.needs i = none ∨ g.needs i = some le) {c p' : Plan Row} {d one ga o}
    (h : Src env .pre c ⟨d, one, false, .perm, ga⟩) (hc : Ordered false c o)
    (hp : plan env (writing g (orderBy le hle c)) = .ok (some p')) {s : Seen Row} (hsee : ClientSees false p' s) :
    s.rows.Pairwise (fun x y => le x y = true) ∧
      ∃ l a, s.rows <+: l ∧ (s.Clean → s.rows = l) ∧ Answer c a ∧ l.Perm a := by
  have hq : Ordered false (writing g (orderBy le hle c)) (some le) := hg ▸ writing_ordered (orderBy_ordered hle hc) hn
  obtain ⟨h1, l, x, h2, h3, hx, h4⟩ := C71_sorted_until_it_fails_partial he hs (writing_src hw (orderBy_src hle h)) rfl rfl rfl hq hp hsee
  rw [answer_writing hw] at hx
  simp only [orderBy, fresh] at hx
  rw [answer_pass (fun _ _ => Iff.rfl)] at hx
  obtain ⟨a, ha, e⟩ := answer_one.mp hx
  exact ⟨h1, l, a, h2, h3, ha, List.Perm.trans h4 e⟩

/-- **C71** With task counts chosen while the query runs: what the client has got when the query fails is sorted as promised, and the
beginning of an answer; if the query ends without an error, it is all of it. Missing: panics. -/
theorem C71_dynamic_sorted_until_it_fails_partial (he : EnvOk env) (hs : ScaleKeepsOrder env) {p p' : Plan Row} {J : SInfo Row}
    (h : Src env .pre p J) (hrep : J.rep = false) (hg : J.gathered = true) (ho : J.one = true) {le}
    (hq : Ordered false p (some le)) (cpu : Plan Row → Plan Row → Except Err (Option Nat)) (bytes : Nat)
    (hp : dynamicPlan (env.costing cpu bytes) p = .ok p') {s : Seen Row} (hsee : ClientSees false p' s) :
    s.rows.Pairwise (fun x y => le x y = true) ∧
      ∃ l d, s.rows <+: l ∧ (s.Clean → s.rows = l) ∧ Answer p d ∧ J.eqv.eqv l d := by
  obtain ⟨l, hl, h5, h6⟩ := C71_failures_only_cut_partial (dynamic_ordered he hs h ho hq cpu bytes hp) hsee
  obtain ⟨h1, d, h2, h3⟩ := (C70_dynamic_order_is_kept_partial he hs h hrep hg ho hq cpu bytes hp).2 l hl
  exact ⟨h1.sublist h5.sublist, l, d, h5, h6, h2, h3⟩

/-- **C94** An `ORDER BY` of the query if task counts are chosen while the statement runs. -/
theorem C94_order_by_dynamic_partial (he : EnvOk env) (hs : ScaleKeepsOrder env) {g : Op Row} (hw : Writes g) {le : Row → Row → Bool}
    (hle : TotalOrder le) (hg : g.order = some le) (hn : ∀ i, g.needs i = none ∨ g.needs i = some le) {c p' : Plan Row} {d one ga o}
    (h : Src env .pre c ⟨d, one, false, .perm, ga⟩) (hc : Ordered false c o)
    (cpu : Plan Row → Plan Row → Except Err (Option Nat)) (bytes : Nat)
    (hp : dynamicPlan (env.costing cpu bytes) (writing g (orderBy le hle c)) = .ok p') {s : Seen Row} (hsee : ClientSees false p' s) :
    s.rows.Pairwise (fun x y => le x y = true) ∧
      ∃ l a, s.rows <+: l ∧ (s.Clean → s.rows = l) ∧ Answer c a ∧ l.Perm a := by
  have hq : Ordered false (writing g (orderBy le hle c)) (some le) := hg ▸ writing_ordered (orderBy_ordered hle hc) hn
  obtain ⟨h1, l, x, h2, h3, hx, h4⟩ := C71_dynamic_sorted_until_it_fails_partial he hs (writing_src hw (orderBy_src hle h)) rfl rfl rfl hq
    cpu bytes hp hsee
  rw [answer_writing hw] at hx
  simp only [orderBy, fresh] at hx
  rw [answer_pass (fun _ _ => Iff.rfl)] at hx
  obtain ⟨a, ha, e⟩ := answer_one.mp hx
  exact ⟨h1, l, a, h2, h3, ha, List.Perm.trans h4 e⟩

namespace Demo

/-- A sink that writes the rows as they come. -/
def plainSink : Op (Nat × Nat) where
  exec := fun _ _ _ as => as.getD 0 []
  may := fun as x => x = as.getD 0 []
  ok := fun _ _ _ _ => rfl

/-- A sink that asks for rows sorted by their first component. -/
def sortedSink : Op (Nat × Nat) where
  exec := fun _ _ _ as => as.getD 0 []
  may := fun as x => x = as.getD 0 []
  ok := fun _ _ _ _ => rfl
  needs := fun i => if i = 0 then some byKey else none
  order := some byKey
  sorted := fun _ _ _ _ h => h 0

theorem rowsToWrite_src : Src sess .pre rowsToWrite ⟨none, true, false, .perm, true⟩ :=
  .gather (.inl rfl) (by rintro _ _ ⟨⟩) (fun _ => ⟨by rintro _ _ _ ⟨⟩, by rintro _ ⟨⟩⟩) (by simp) input_src

theorem rowsToWrite_ordered : Ordered false rowsToWrite none := ordered_one input_ordered (by rintro _ ⟨⟩)

end Demo

/-- Non-vacuity: the statement is distributed; it can end without an error, and whatever is seen of it is as the theorem says. -/
example : ∃ p', plan Demo.sess (writing Demo.plainSink Demo.rowsToWrite) = .ok (some p')
    ∧ (∃ s, ClientSees false p' s ∧ s.Clean)
    ∧ ∀ s, ClientSees false p' s → ∃ l a, s.rows <+: l ∧ (s.Clean → s.rows = l) ∧ Answer Demo.rowsToWrite a ∧ l.Perm a := by
  have h : (match plan Demo.sess (writing Demo.plainSink Demo.rowsToWrite) with | .ok (some _) => true | _ => false) = true := by
    decide +kernel
  have hw : Writes Demo.plainSink := ⟨fun _ _ _ _ => rfl, fun _ _ => Iff.rfl⟩
  split at h
  · rename_i p' hp
    exact ⟨p', hp, (C71_clean_end_is_an_answer_partial Demo.sess_ok Demo.sess_keeps_order (writing_src hw Demo.rowsToWrite_src) rfl
        (.inl ⟨rfl, rfl⟩) (writing_ordered Demo.rowsToWrite_ordered fun _ => .inl rfl) hp).1,
      fun s hs => C94_failures_partial Demo.sess_ok Demo.sess_keeps_order hw Demo.rowsToWrite_src Demo.rowsToWrite_ordered
        (fun _ => .inl rfl) hp hs⟩
  · cases h

example : ∃ p', plan Demo.sess (writing Demo.sortedSink (orderBy Demo.byKey Demo.byKey_total Demo.input)) = .ok (some p')
    ∧ ∀ s, ClientSees false p' s → s.rows.Pairwise (fun x y => Demo.byKey x y = true) := by
  have h : (match plan Demo.sess (writing Demo.sortedSink (orderBy Demo.byKey Demo.byKey_total Demo.input)) with
      | .ok (some _) => true | _ => false) = true := by
    decide +kernel
  have hw : Writes Demo.sortedSink := ⟨fun _ _ _ _ => rfl, fun _ _ => Iff.rfl⟩
  split at h
  · rename_i p' hp
    exact ⟨p', hp, fun s hs => (C94_order_by_partial Demo.sess_ok Demo.sess_keeps_order hw Demo.byKey_total rfl
      (fun i => by by_cases e : i = 0 <;> simp [Demo.sortedSink, e]) Demo.input_src Demo.input_ordered hp hs).1⟩
  · cases h

example : ∃ p', dynamicPlan (Demo.sess.costing (fun _ _ => .ok (some 7)) 2)
      (writing Demo.sortedSink (orderBy Demo.byKey Demo.byKey_total Demo.input)) = .ok p'
    ∧ ∀ s, ClientSees false p' s → s.rows.Pairwise (fun x y => Demo.byKey x y = true) := by
  have hw : Writes Demo.sortedSink := ⟨fun _ _ _ _ => rfl, fun _ _ => Iff.rfl⟩
  cases hp : dynamicPlan (Demo.sess.costing (fun _ _ => .ok (some 7)) 2)
      (writing Demo.sortedSink (orderBy Demo.byKey Demo.byKey_total Demo.input)) with
  | error e =>
    have : (dynamicPlan (Demo.sess.costing (fun _ _ => .ok (some 7)) 2)
      (writing Demo.sortedSink (orderBy Demo.byKey Demo.byKey_total Demo.input))).isOk = true := by decide +kernel
    rw [hp] at this; cases this
  | ok p' => exact ⟨p', rfl, fun s hs => (C94_order_by_dynamic_partial Demo.sess_ok Demo.sess_keeps_order hw Demo.byKey_total rfl
      (fun i => by by_cases e : i = 0 <;> simp [Demo.sortedSink, e]) Demo.input_src Demo.input_ordered _ _ hp hs).1⟩

end DD.Tree
