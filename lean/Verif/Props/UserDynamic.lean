/-
**C58** for plans in which the user placed the boundaries: they cannot be run with task counts that are chosen while they run.
-/
import Verif.Model.UserDynamic
import Verif.Props.Placed
import Verif.Props.Dynamic

namespace DD.Tree.Create

open DD.Tree DD.Tree.Rec

variable {Row : Type} {env : Env Row} {fuel : Nat}

/-! ### Specification -/

/-- Whether a node is an isolated union. -/
def isolates : Kind Row → Bool
  | .ciu .. => true
  | _ => false

/- Every boundary of a plan has at least one producer task and has its input plan, and no union is isolated. -/
mutual
def ordinary : Plan Row → Bool
  | .node k _ cs =>
    (!k.isNet || (decide (1 ≤ k.tasks) && !cs.isEmpty)) && !isolates k && ordinaryAll cs
/-- `ordinary` for every plan of a list. -/
def ordinaryAll : List (Plan Row) → Bool
  | [] => true
  | c :: cs => ordinary c && ordinaryAll cs
end

/-! ### Lemmas -/

/- Whether some boundary has a local stage of several tasks. -/
mutual
def stuck : Plan Row → Bool
  | .node k _ cs => (isLocal k && !cs.isEmpty && decide (k.tasks > 1)) || stuckAny cs
/-- `stuck` for some plan of a list. -/
def stuckAny : List (Plan Row) → Bool
  | [] => false
  | c :: cs => stuck c || stuckAny cs
end

mutual
theorem executeLocal_stuck : ∀ {p : Plan Row}, stuck p = true → executeLocal p = .error (.exec "Cannot execute a local stage with more than 1 task")
  | .node k tc cs, h => by
    rw [executeLocal]
    rw [stuck, Bool.or_eq_true] at h
    split
    · rfl
    · rename_i hn
      rcases h with h | h
      · exact absurd h hn
      · exact executeLocalAll_stuck h
theorem executeLocalAll_stuck : ∀ {cs : List (Plan Row)}, stuckAny cs = true →
    executeLocalAll cs = .error (.exec "Cannot execute a local stage with more than 1 task")
  | [], h => by cases h
  | c :: cs, h => by
    rw [executeLocalAll]
    rw [stuckAny, Bool.or_eq_true] at h
    by_cases hc : stuck c = true
    · rw [executeLocal_stuck hc]; rfl
    · have h := executeLocalAll_stuck (h.resolve_left hc)
      cases he : executeLocal c with
      | ok _ => simp only [bind, Except.bind]; exact h
      | error e =>
        have := executeLocal_error he
        simp only [bind, Except.bind, this]
theorem executeLocal_error : ∀ {p : Plan Row} {e}, executeLocal p = .error e → e = .exec "Cannot execute a local stage with more than 1 task"
  | .node k tc cs, e, h => by
    rw [executeLocal] at h
    split at h
    · cases h; rfl
    · exact executeLocalAll_error h
theorem executeLocalAll_error : ∀ {cs : List (Plan Row)} {e}, executeLocalAll cs = .error e →
    e = .exec "Cannot execute a local stage with more than 1 task"
  | [], e, h => by cases h
  | c :: cs, e, h => by
    rw [executeLocalAll] at h
    cases he : executeLocal c with
    | ok _ => rw [he] at h; exact executeLocalAll_error h
    | error e' => rw [he] at h; cases h; exact executeLocal_error he
end

theorem childTaskCounts_length (n : Union.Node) : n.childTaskCounts.length = n.children.length := by
  unfold Union.Node.childTaskCounts
  have inner : ∀ (es : List Union.Entry) (acc : List Nat), (es.foldl (fun acc (c, ctx) =>
      match acc[c]? with
      | some k => acc.set c (max k ctx.count)
      | none => acc) acc).length = acc.length := by
    intro es
    induction es with
    | nil => intro acc; rfl
    | cons e es ih =>
      intro acc
      rw [List.foldl_cons, ih]
      obtain ⟨c, ctx⟩ := e
      dsimp only
      split <;> simp
  have outer : ∀ (m : Union.TaskMap) (acc : List Nat), (m.foldl (fun acc es => es.foldl (fun acc (c, ctx) =>
      match acc[c]? with
      | some k => acc.set c (max k ctx.count)
      | none => acc) acc) acc).length = acc.length := by
    intro m
    induction m with
    | nil => intro acc; rfl
    | cons es m ih => intro acc; rw [List.foldl_cons, ih, inner]
  exact (outer _ _).trans (by simp)

theorem make_children {sp ws budget} {cs : List Nat} {n : Union.Node} (h : Union.Node.make sp cs ws budget = .ok n) : n.children = cs := by
  unfold Union.Node.make at h
  split at h
  · cases h
  · obtain ⟨m, h1, h⟩ := bind_ok h
    obtain ⟨c, h2, h⟩ := bind_ok h
    split at h
    · cases h
    · cases h; rfl

theorem stuck_isEmpty {k : Kind Row} {tc} {cs : List (Plan Row)} (h : stuck (.node k tc cs) = true) : cs.isEmpty = false := by
  cases cs with
  | nil => simp [stuck, stuckAny] at h
  | cons => rfl

mutual
theorem propagate_stuck : ∀ {p q : Plan Row} {t}, propagate env p t = .ok q → stuck p = true → stuck q = true
  | .node k tc cs, q, t, h, hs => by
    have he := stuck_isEmpty hs
    by_cases hk : k.isNet = true
    · have : propagate env (.node k tc cs) t = .ok (.node k t cs) := by
        rw [propagate]
        · simp [he, hk]
        · intro ws m e; subst e; cases hk
      rw [this] at h; cases h
      rw [stuck] at hs ⊢; exact hs
    · have hk : k.isNet = false := by simpa using hk
      rw [stuck] at hs
      have hs : stuckAny cs = true := by
        simpa [isLocal, hk] using hs
      by_cases hc : ∃ ws m, k = .ciu ws m
      · obtain ⟨ws, m, rfl⟩ := hc
        rw [propagate] at h
        simp only [he, Kind.isNet, Bool.false_eq_true, if_false] at h
        obtain ⟨n, h1, h⟩ := bind_ok h
        obtain ⟨cs', h2, h⟩ := bind_ok h
        obtain ⟨n', h3, h⟩ := bind_ok h
        cases h
        rw [stuck, propagateEach_stuck (by rw [List.length_map, childTaskCounts_length, make_children h1, List.length_map]) h2 hs]
        simp
      · have hc : ∀ ws m, k ≠ .ciu ws m := fun ws m e => hc ⟨ws, m, e⟩
        rw [propagate] at h
        · simp only [he, hk, Bool.false_eq_true, if_false] at h
          obtain ⟨cs', h2, h⟩ := bind_ok h
          cases h
          rw [stuck, propagateEach_stuck (by simp) h2 hs]
          simp
        · exact fun ws m e => hc ws m e
theorem propagateEach_stuck : ∀ {cs cs' : List (Plan Row)} {ts : List TaskCount}, ts.length = cs.length →
    propagateEach env cs ts = .ok cs' → stuckAny cs = true → stuckAny cs' = true
  | [], _, _, _, _, hs => by cases hs
  | c :: cs, cs', [], hl, _, _ => by simp at hl
  | c :: cs, cs', t :: ts, hl, h, hs => by
    rw [propagateEach] at h
    obtain ⟨c1, h1, h⟩ := bind_ok h
    obtain ⟨cs1, h2, h⟩ := bind_ok h
    cases h
    rw [stuckAny, Bool.or_eq_true] at hs ⊢
    exact hs.imp (propagate_stuck h1) (propagateEach_stuck (by simpa using hl) h2)
end

theorem build_stuck {o q c : Plan Row} {t} (h : build env o q = .ok (c, t)) (hs : stuck q = true) : stuck c = true := by
  unfold build at h
  obtain ⟨t', _, h⟩ := bind_ok h
  obtain ⟨c', h2, h⟩ := bind_ok h
  cases h
  exact propagate_stuck h2 hs

theorem wrap_stuck {par} {o q r : Plan Row} (h : wrap env par o q = .ok r) (hs : stuck q = true) : stuck r = true := by
  unfold wrap at h
  split at h
  · obtain ⟨⟨c, t⟩, h1, h⟩ := bind_ok h
    cases h
    rw [stuck, stuckAny, build_stuck h1 hs]; simp
  · obtain ⟨⟨c, t⟩, h1, h⟩ := bind_ok h
    cases h
    rw [stuck, stuckAny, build_stuck h1 hs]; simp
  · obtain ⟨⟨c, t⟩, h1, h⟩ := bind_ok h
    obtain ⟨e, h2, h⟩ := bind_ok h
    cases h
    rw [stuck, stuckAny, build_stuck h1 hs]; simp
  · exact propagate_stuck h hs
  · cases h; exact hs

mutual
theorem inject_stuck : ∀ {p q : Plan Row} {par}, inject env par p = .ok q → stuck p = true → stuck q = true
  | .node k tc cs, q, par, h, hs => by
    obtain ⟨cs', d, h1, h2, h3⟩ := inject_inv h
    refine wrap_stuck h3 ?_
    have hl := (injectAll_inv h1).1
    rw [stuck, Bool.or_eq_true] at hs ⊢
    rcases hs with hs | hs
    · left
      have : cs'.isEmpty = cs.isEmpty := by
        cases cs <;> cases cs' <;> simp_all
      rw [this]; exact hs
    · exact .inr (injectAll_stuck h1 hs)
theorem injectAll_stuck : ∀ {cs cs' : List (Plan Row)} {par}, injectAll env par cs = .ok cs' → stuckAny cs = true → stuckAny cs' = true
  | [], _, _, _, hs => by cases hs
  | c :: cs, cs', par, h, hs => by
    rw [injectAll] at h
    obtain ⟨c1, h1, h⟩ := bind_ok h
    obtain ⟨cs1, h2, h⟩ := bind_ok h
    cases h
    rw [stuckAny, Bool.or_eq_true] at hs ⊢
    exact hs.imp (inject_stuck h1) (injectAll_stuck h2)
end

/- What `prepare_network_boundaries` leaves: boundaries that are numbered and not between single tasks. -/
mutual
def Surviving : Nat → Plan Row → Prop
  | t, .node k _ cs => (k.isNet = true → cs ≠ [] → k.num ≠ 0 ∧ ¬ (t = 1 ∧ k.tasks = 1)) ∧ SurvivingEach (childCounts k t cs.length) cs
/-- `Surviving` for plans with their task counts. -/
def SurvivingEach : List Nat → List (Plan Row) → Prop
  | _, [] => True
  | [], _ :: _ => False
  | t :: ts, c :: cs => Surviving t c ∧ SurvivingEach ts cs
end

theorem withStage_isNet (k : Kind Row) (i : Nat) : (k.withStage i).isNet = k.isNet := by cases k <;> rfl
theorem withStage_tasks (k : Kind Row) (i : Nat) : (k.withStage i).tasks = k.tasks := by cases k <;> rfl
theorem withStage_num {k : Kind Row} (h : k.isNet = true) (i : Nat) : (k.withStage i).num = i := by cases k <;> first | rfl | cases h

theorem childCounts_length (k : Kind Row) (t n : Nat) : (childCounts k t n).length = n := by
  unfold childCounts
  split
  · rw [childTaskCounts_length]; simp
  · split <;> simp

theorem SurvivingEach.length : ∀ {ts : List Nat} {cs : List (Plan Row)}, SurvivingEach ts cs → cs.length ≤ ts.length
  | _, [], _ => by simp
  | [], _ :: _, h => by rw [SurvivingEach] at h; exact h.elim
  | t :: ts, c :: cs, h => by rw [SurvivingEach] at h; have := h.2.length; simp; omega

theorem Surviving.strip {t : Nat} {p : Plan Row} (h : Surviving t p) : Surviving t (strip p) := by
  cases p with
  | node k tc cs =>
    cases cs with
    | nil => exact h
    | cons c cs =>
      simp only [Tree.strip]
      split
      · rename_i hk
        rw [Surviving] at h
        have := h.2
        have hc : childCounts k t (c :: cs).length = t :: List.replicate cs.length t := by
          cases k <;> first | (simp [childCounts, Kind.isNet, List.replicate_succ]; done) | cases hk
        rw [hc, SurvivingEach] at this
        exact this.1
      · exact h

theorem insert_surviving {hd : Head Row} {t : Nat} {p q : Plan Row} (h : hd.insert p = .ok q) (hp : Surviving t p) : Surviving t q := by
  unfold Head.insert at h
  split at h
  · cases h; exact hp.strip
  · obtain ⟨b, _, h⟩ := bind_ok h
    cases h
    rw [Surviving]
    refine ⟨(by rintro ⟨⟩), ?_⟩
    show SurvivingEach [t] _
    rw [SurvivingEach, SurvivingEach]
    exact ⟨hp.strip, trivial⟩
  · cases h
    rw [Surviving]
    refine ⟨(by rintro ⟨⟩), ?_⟩
    show SurvivingEach [t] _
    rw [SurvivingEach, SurvivingEach]
    exact ⟨hp.strip, trivial⟩

mutual
theorem prepare_surviving : ∀ {p p' : Plan Row} {t id id' : Nat}, 1 ≤ id → prepare false p t id = .ok (p', id') →
    Surviving t p' ∧ 1 ≤ id'
  | .node k tc cs, p', t, id, id', hid, h => by
    rw [prepare] at h
    obtain ⟨⟨cs', id1⟩, h1, h⟩ := bind_ok h
    obtain ⟨hs, hid1, hl⟩ := prepareAll_surviving hid (childCounts_length ..) h1
    cases cs' with
    | nil =>
      unfold prepareNode at h
      cases h
      rw [Surviving]
      exact ⟨⟨fun _ e => absurd rfl e, by rw [SurvivingEach]; trivial⟩, hid1⟩
    | cons c cs1 =>
      simp only [prepareNode] at h
      cases hk : k.isNet with
      | false =>
        simp only [hk, Bool.not_false, if_true] at h
        cases h
        rw [Surviving, hl]
        exact ⟨⟨fun e => absurd e (by simp [hk]), hs⟩, hid1⟩
      | true =>
        simp only [hk, Bool.not_true, Bool.false_eq_true, if_false] at h
        have hcc : childCounts k t cs.length = List.replicate cs.length k.tasks := by
          unfold childCounts
          split
          · cases hk
          · simp [hk]
        rw [hcc] at hs
        have hc : Surviving k.tasks c := by
          cases cs with
          | nil => simp at hl
          | cons _ cs0 =>
            rw [List.length_cons, List.replicate_succ, SurvivingEach] at hs
            exact hs.1
        split at h
        · rename_i h11
          cases h
          rw [h11.2.1]; rw [h11.2.2] at hc
          exact ⟨hc, hid1⟩
        · rename_i h11
          obtain ⟨c', h2, h⟩ := bind_ok h
          cases h
          refine ⟨?_, by omega⟩
          rw [Surviving]
          refine ⟨fun _ _ => ⟨by rw [withStage_num hk]; omega, ?_⟩, ?_⟩
          · rw [withStage_tasks]
            intro ⟨e1, e2⟩
            exact h11 ⟨trivial, e1, e2⟩
          · have : childCounts (k.withStage id1) t [c'].length = [k.tasks] := by
              unfold childCounts
              split
              · rename_i e; have := withStage_isNet k id1; rw [e, hk] at this; cases this
              · simp [withStage_isNet, hk, withStage_tasks]
            rw [this, SurvivingEach, SurvivingEach]
            exact ⟨insert_surviving h2 hc, trivial⟩
theorem prepareAll_surviving : ∀ {cs cs' : List (Plan Row)} {ts : List Nat} {id id' : Nat}, 1 ≤ id → ts.length = cs.length →
    prepareAll false cs ts id = .ok (cs', id') → SurvivingEach ts cs' ∧ 1 ≤ id' ∧ cs'.length = cs.length
  | [], cs', ts, id, id', hid, hl, h => by
    rw [prepareAll] at h; cases h
    exact ⟨by rw [SurvivingEach]; trivial, hid, rfl⟩
  | c :: cs, cs', [], id, id', hid, hl, h => by simp at hl
  | c :: cs, cs', t :: ts, id, id', hid, hl, h => by
    rw [prepareAll] at h
    obtain ⟨⟨c1, id1⟩, h1, h⟩ := bind_ok h
    obtain ⟨⟨cs1, id2⟩, h2, h⟩ := bind_ok h
    cases h
    obtain ⟨a, b⟩ := prepare_surviving hid h1
    obtain ⟨x, y, z⟩ := prepareAll_surviving b (by simpa using hl) h2
    exact ⟨by rw [SurvivingEach]; exact ⟨a, x⟩, y, by simp [z]⟩
end

mutual
theorem surviving_stuck : ∀ {p : Plan Row}, Surviving 1 p → ordinary p = true → hasNet p = true → stuck p = true
  | .node k tc cs, hs, ho, hn => by
    rw [Surviving] at hs
    rw [ordinary, Bool.and_eq_true, Bool.and_eq_true] at ho
    rw [stuck]
    by_cases hk : k.isNet = true
    · obtain ⟨h1, h2⟩ : 1 ≤ k.tasks ∧ cs ≠ [] := by simpa [hk] using ho.1.1
      obtain ⟨h3, h4⟩ := hs.1 hk h2
      have : 1 < k.tasks := by
        rcases Nat.lt_or_eq_of_le h1 with h | h
        · exact h
        · exact absurd ⟨rfl, h.symm⟩ h4
      have he : cs.isEmpty = false := by cases cs with
        | nil => exact absurd rfl h2
        | cons => rfl
      simp [isLocal, hk, h3, he, this]
    · have hk : k.isNet = false := by simpa using hk
      rw [hasNet, hk, Bool.false_or] at hn
      have hc : childCounts k 1 cs.length = List.replicate cs.length 1 := by
        unfold childCounts
        split
        · exact absurd ho.1.2 (by simp [isolates])
        · simp [hk]
      rw [hc] at hs
      rw [surviving_stuckAny hs.2 ho.2 hn]
      simp
theorem surviving_stuckAny : ∀ {cs : List (Plan Row)}, SurvivingEach (List.replicate cs.length 1) cs → ordinaryAll cs = true →
    hasNetAny cs = true → stuckAny cs = true
  | [], _, _, hn => by cases hn
  | c :: cs, hs, ho, hn => by
    rw [List.length_cons, List.replicate_succ, SurvivingEach] at hs
    rw [ordinaryAll, Bool.and_eq_true] at ho
    rw [hasNetAny, Bool.or_eq_true] at hn
    rw [stuckAny, Bool.or_eq_true]
    exact hn.imp (surviving_stuck hs.1 ho.1) (surviving_stuckAny hs.2 ho.2)
end

/-! ### The property -/

/-- **C58 fails for every plan with user-placed boundaries.** In a session that chooses task counts while the query runs, a query whose
boundaries the user placed is planned as a distributed query, and then every run of it fails, whatever the statistics and the cost
function, although the same plan runs with fixed task counts (`C08_user_boundaries_partial`). -/
theorem C58_user_boundaries_false {p p' : Plan Row} (hn : hasNet p = true)
    (hp : create env true fuel (.plan p) = .ok (.distributed (.plan p'))) (ho : ordinary p' = true)
    (cpu : Plan Row → Plan Row → Except Err (Option Nat)) (bytes : Nat) :
    ∃ e, runUserDynamic (env.costing cpu bytes) p' = .error e := by
  rw [create_user hn] at hp
  obtain ⟨p2, h2, hp⟩ := mbind_ok hp
  split at hp
  · rename_i hn2
    cases hp
    obtain ⟨p1, h1, h2⟩ := mbind_ok h2
    have hs : Surviving 1 p' := by
      cases hq : prepare false p1 1 1 with
      | error e => rw [hq] at h2; cases h2
      | ok r =>
        obtain ⟨q, i⟩ := r
        rw [hq] at h2
        cases h2
        exact (prepare_surviving (Nat.le_refl _) hq).1
    have hst := surviving_stuck hs ho hn2
    unfold runUserDynamic
    cases hq : inject (env.costing cpu bytes) .root p' with
    | error e => exact ⟨e, rfl⟩
    | ok q =>
      have := executeLocal_stuck (inject_stuck hq hst)
      refine ⟨.exec "Cannot execute a local stage with more than 1 task", ?_⟩
      show (do executeLocal q; Except.ok q) = _
      rw [this]; rfl
  · cases hp

/-! ### It applies -/

/-- An aggregation whose boundaries the user placed, with 3 and 2 tasks: planned as a distributed query either way, right with fixed task
counts, and failing with task counts chosen while it runs. -/
theorem C58_user_boundaries_witness : ∃ p', create Demo.sess true 9 (.plan (Demo.userSum 3 2)) = .ok (.distributed (.plan p')) ∧
    create Demo.sess false 9 (.plan (Demo.userSum 3 2)) = .ok (.distributed (.plan p')) ∧ ordinary p' = true ∧
    (∃ d, Answer (Demo.userSum 3 2) d ∧ (distributed p').Perm d) ∧
    ∀ cpu bytes, ∃ e, runUserDynamic (Demo.sess.costing cpu bytes) p' = .error e := by
  have h : (match create Demo.sess false 9 (.plan (Demo.userSum 3 2)) with
      | .ok (.distributed (.plan p)) => ordinary p | _ => false) = true := by
    decide +kernel
  split at h
  · rename_i p' hq
    have ht : create Demo.sess true 9 (.plan (Demo.userSum 3 2)) = .ok (.distributed (.plan p')) := by
      rw [create_user (by decide +kernel)]; rw [create_user (by decide +kernel)] at hq; exact hq
    obtain ⟨p2, a, _, _, b⟩ := (C08_user_boundaries_partial Demo.sess_scales (by decide +kernel)
      (Demo.userSum_placed (by decide) (by decide))).2 _ hq
    rcases a with ⟨_, a⟩ | ⟨_, a⟩
    · cases a
      exact ⟨p', ht, hq, h, b, fun cpu bytes => C58_user_boundaries_false (by decide +kernel) ht h cpu bytes⟩
    · cases a
  · cases h

/-- The error of that run, with the costs of any stage unknown. -/
example : ∃ p', create Demo.sess true 9 (.plan (Demo.userSum 3 2)) = .ok (.distributed (.plan p')) ∧
    runUserDynamic (Demo.sess.costing (fun _ _ => .ok none) 1) p' = .error (.exec "Cannot execute a local stage with more than 1 task") := by
  have h : (match create Demo.sess true 9 (.plan (Demo.userSum 3 2)) with
      | .ok (.distributed (.plan p)) => (match runUserDynamic (Demo.sess.costing (fun _ _ => .ok none) 1) p with
        | .error e => e == .exec "Cannot execute a local stage with more than 1 task" | _ => false)
      | _ => false) = true := by
    decide +kernel
  split at h
  · rename_i p' hq
    refine ⟨p', hq, ?_⟩
    split at h
    · rename_i e he
      rw [he]; congr 1; simpa using h
    · cases h
  · cases h

end DD.Tree.Create
