/-
**C08** for plans in which the user placed the network boundaries.
-/
import Verif.Spec.Placed
import Verif.Props.Create

namespace DD.Tree.Create

open DD.Tree DD.Tree.Rec

variable {Row : Type} {env : Env Row} {fuel : Nat}

/-! ### Scaling leaves up -/

theorem scaled_inv {T : Nat} {k : Kind Row} {tc : TaskCount} {c : Plan Row} {cs : List (Plan Row)} {p' : Plan Row}
    (h : Scaled env T (.node k tc (c :: cs)) p') : ∃ cs', p' = .node k tc cs' ∧ cs'.length = (c :: cs).length
      ∧ ∀ (i : Nat) x x', (c :: cs)[i]? = some x → cs'[i]? = some x' → Scaled env (childCount k T i) x x' := by
  cases h with
  | node hne hl h => exact ⟨_, rfl, hl, h⟩

theorem scaled_inv' {T : Nat} {k : Kind Row} {tc : TaskCount} {cs : List (Plan Row)} {p' : Plan Row} (hne : cs ≠ [])
    (h : Scaled env T (.node k tc cs) p') : ∃ cs', p' = .node k tc cs' ∧ cs'.length = cs.length
      ∧ (∀ (i : Nat) x', cs'[i]? = some x' → ∃ x, cs[i]? = some x ∧ Scaled env (childCount k T i) x x') ∧ cs' ≠ [] := by
  cases cs with
  | nil => exact absurd rfl hne
  | cons c cs =>
    obtain ⟨cs', rfl, hl, hc⟩ := scaled_inv h
    refine ⟨cs', rfl, hl, fun i x' hx => ?_, fun e => by subst e; simp at hl⟩
    have hi : i < (c :: cs).length := by rw [← hl]; exact (List.getElem?_eq_some_iff.mp hx).1
    exact ⟨(c :: cs)[i], by simp [hi], hc i _ x' (by simp [hi]) hx⟩

theorem scaled_one {T : Nat} {k : Kind Row} {tc : TaskCount} {c p' : Plan Row} (h : Scaled env T (.node k tc [c]) p') :
    ∃ c', p' = .node k tc [c'] ∧ Scaled env (childCount k T 0) c c' := by
  obtain ⟨cs', rfl, hl, hc⟩ := scaled_inv h
  obtain ⟨c', rfl⟩ := one_of_length (by simpa using hl)
  exact ⟨c', rfl, hc 0 c c' rfl rfl⟩

theorem scaled_two {T : Nat} {k : Kind Row} {tc : TaskCount} {b c p' : Plan Row} (h : Scaled env T (.node k tc [b, c]) p') :
    ∃ b' c', p' = .node k tc [b', c'] ∧ Scaled env (childCount k T 0) b b' ∧ Scaled env (childCount k T 1) c c' := by
  obtain ⟨cs', rfl, hl, hc⟩ := scaled_inv h
  match cs', hl with
  | [b', c'], _ => exact ⟨b', c', rfl, hc 0 b b' rfl rfl, hc 1 c c' rfl rfl⟩

theorem scaled_kind (hs : ScalesToLeaf env) {T : Nat} {p p' : Plan Row} (h : Scaled env T p p') (h1 : p.kind.isHead = false)
    (h2 : p.kind.isNet = false) : p'.kind.isHead = false ∧ p'.kind.isNet = false := by
  cases h with
  | kept => exact ⟨h1, h2⟩
  | scaled e => exact ⟨(hs _ _ _ e).2.2, (hs _ _ _ e).2.1⟩
  | node => exact ⟨h1, h2⟩

theorem strip_headless {p : Plan Row} (h : p.kind.isHead = false) : strip p = p := by
  cases p with
  | node k t cs =>
    cases cs with
    | nil => rfl
    | cons a cs => simp only [Plan.kind] at h; simp [strip, h]

/-- Scaling the leaves of a plan with well-placed boundaries makes it executable, with the same meaning. -/
theorem Placed.scaled (hs : ScalesToLeaf env) {T : Nat} {p : Plan Row} {I : Info Row} (h : Placed env T p I) :
    ∀ p', Scaled env T p p' → Legal true T p' I ∧ I.eqv.sub (Answer p') (Answer p) := by
  induction h with
  | leaf h1 h2 =>
    intro p' h
    cases h with
    | kept e => obtain ⟨rfl, hne, rfl⟩ := h1 e; exact ⟨.leaf hne, RowEq.sub_refl _ _⟩
    | scaled e =>
      obtain ⟨l, ha⟩ := h2 _ e
      exact ⟨l, fun d hd => ⟨_, answer_node.mpr ⟨[], ⟨rfl, by simp⟩, rfl⟩, ha d hd⟩⟩
    | node hne => exact absurd rfl hne
  | distLeaf e0 h0 h1 h2 h3 h4 =>
    intro p' h
    cases h with
    | kept => exact ⟨.distLeaf h0 h1 h2 h3 h4, RowEq.sub_refl _ _⟩
    | scaled e => rw [e0] at e; cases e
    | node hne => exact absurd rfl hne
  | opLocal hg hr hd _ ih =>
    intro p' h
    obtain ⟨c', rfl, h1⟩ := scaled_one h
    obtain ⟨i1, i2⟩ := ih c' h1
    exact ⟨.opLocal hg hr hd i1, answer_sub1 hg.congr i2⟩
  | @opKeyed tc g red cs T P hs Es d' E' hk hr hd hne hl hl' _ ih =>
    intro p' h
    obtain ⟨cs', rfl, h1, h2, h3⟩ := scaled_inv' hne h
    have hf : ∀ (i : Nat) c' h E, cs'[i]? = some c' → hs[i]? = some h → Es[i]? = some E →
        Legal true T c' ⟨P, some h, false, E⟩ ∧ ∀ c, cs[i]? = some c → E.sub (Answer c') (Answer c) := by
      intro i c' h E x1 x2 x3
      obtain ⟨c, e1, e2⟩ := h2 i c' x1
      obtain ⟨i1, i2⟩ := ih i c h E e1 x2 x3 c' e2
      exact ⟨i1, fun c2 hc2 => by rw [e1] at hc2; cases hc2; exact i2⟩
    refine ⟨.opKeyed hk hr hd h3 (by omega) (by omega) fun i c h E x1 x2 x3 => (hf i c h E x1 x2 x3).1, ?_⟩
    refine answer_sub hk.congr h1 hl' ?_
    intro i c' c E x1 x2 x3
    have hi := (List.getElem?_eq_some_iff.mp x1).1
    exact (hf i c' (hs[i]'(by omega)) E x1 (by simp) x3).2 c x2
  | @opSingle tc g red cs Es E' hw hr hne hl _ ih =>
    intro p' h
    obtain ⟨cs', rfl, h1, h2, h3⟩ := scaled_inv' hne h
    have hf : ∀ (i : Nat) c' E, cs'[i]? = some c' → Es[i]? = some E →
        Legal true 1 c' ⟨1, none, false, E⟩ ∧ ∀ c, cs[i]? = some c → E.sub (Answer c') (Answer c) := by
      intro i c' E x1 x3
      obtain ⟨c, e1, e2⟩ := h2 i c' x1
      obtain ⟨i1, i2⟩ := ih i c E e1 x3 c' e2
      exact ⟨i1, fun c2 hc2 => by rw [e1] at hc2; cases hc2; exact i2⟩
    refine ⟨.opSingle hw hr h3 (by omega) fun i c E x1 x3 => (hf i c E x1 x3).1, ?_⟩
    refine answer_sub hw h1 hl ?_
    intro i c' c E x1 x2 x3
    exact (hf i c' E x1 x3).2 c x2
  | joinSafe hm hsafe hd _ _ ihb ihp =>
    intro q h
    obtain ⟨b', p', rfl, h1, h2⟩ := scaled_two h
    obtain ⟨i1, i2⟩ := ihb b' h1
    obtain ⟨j1, j2⟩ := ihp p' h2
    exact ⟨.joinSafe hm hsafe hd i1 j1, answer_sub_join (safe_unordered hsafe) i2 j2⟩
  | joinSingle hm hu _ _ ihb ihp =>
    intro q h
    obtain ⟨b', p', rfl, h1, h2⟩ := scaled_two h
    obtain ⟨i1, i2⟩ := ihb b' h1
    obtain ⟨j1, j2⟩ := ihp p' h2
    exact ⟨.joinSingle hm hu i1 j1, answer_sub_join hu i2 j2⟩
  | joinPart he hn hd _ _ ihb ihp =>
    intro q h
    obtain ⟨b', p', rfl, h1, h2⟩ := scaled_two h
    obtain ⟨i1, i2⟩ := ihb b' h1
    obtain ⟨j1, j2⟩ := ihp p' h2
    exact ⟨.joinPart he hn hd i1 j1, answer_sub_join (unordered_of_none hn) i2 j2⟩
  | @union tc cs T E Ps hne hl _ ih =>
    intro p' h
    obtain ⟨cs', rfl, h1, h2, h3⟩ := scaled_inv' hne h
    have hf : ∀ (i : Nat) c' P, cs'[i]? = some c' → Ps[i]? = some P →
        Legal true T c' ⟨P, none, false, E⟩ ∧ ∀ c, cs[i]? = some c → E.sub (Answer c') (Answer c) := by
      intro i c' P x1 x3
      obtain ⟨c, e1, e2⟩ := h2 i c' x1
      obtain ⟨i1, i2⟩ := ih i c P e1 x3 c' e2
      exact ⟨i1, fun c2 hc2 => by rw [e1] at hc2; cases hc2; exact i2⟩
    refine ⟨.union h3 (by omega) fun i c P x1 x3 => (hf i c P x1 x3).1, ?_⟩
    refine answer_sub_union (.inl rfl) (.inl rfl) h1 fun i c' c x1 x2 => ?_
    have hi := (List.getElem?_eq_some_iff.mp x1).1
    exact (hf i c' (Ps[i]'(by omega)) x1 (by simp)).2 c x2
  | @ciu tc ws m cs T E k Ps hne hl hm hr ho _ ih =>
    intro p' h
    obtain ⟨cs', rfl, h1, h2, h3⟩ := scaled_inv' hne h
    have hf : ∀ (i : Nat) c' P, cs'[i]? = some c' → Ps[i]? = some P →
        Legal true (k i) c' ⟨P, none, false, E⟩ ∧ ∀ c, cs[i]? = some c → E.sub (Answer c') (Answer c) := by
      intro i c' P x1 x3
      obtain ⟨c, e1, e2⟩ := h2 i c' x1
      have hi := (List.getElem?_eq_some_iff.mp e1).1
      have : childCount (.ciu ws m : Kind Row) T i = k i := unionCount_eq hr hi
      rw [this] at e2
      obtain ⟨i1, i2⟩ := ih i c P e1 x3 c' e2
      exact ⟨i1, fun c2 hc2 => by rw [e1] at hc2; cases hc2; exact i2⟩
    refine ⟨.ciu h3 (by omega) hm (h1 ▸ hr) ho fun i c P x1 x3 => (hf i c P x1 x3).1, ?_⟩
    refine answer_sub_union (.inr ⟨_, _, rfl⟩) (.inr ⟨_, _, rfl⟩) h1 fun i c' c x1 x2 => ?_
    have hi := (List.getElem?_eq_some_iff.mp x1).1
    exact (hf i c' (Ps[i]'(by omega)) x1 (by simp)).2 c x2
  | hashRepart hn hd _ ih =>
    intro p' h
    obtain ⟨c', rfl, h1⟩ := scaled_one h
    obtain ⟨i1, i2⟩ := ih c' h1
    exact ⟨.hashRepart hn hd i1, answer_sub_pass (fun _ _ => Iff.rfl) (fun _ _ => Iff.rfl) i2⟩
  | otherRepart hn hd _ ih =>
    intro p' h
    obtain ⟨c', rfl, h1⟩ := scaled_one h
    obtain ⟨i1, i2⟩ := ih c' h1
    exact ⟨.otherRepart hn hd i1, answer_sub_pass (fun _ _ => Iff.rfl) (fun _ _ => Iff.rfl) i2⟩
  | gather hk _ ih =>
    intro p' h
    rcases hk with rfl | ⟨le, rfl⟩
    · obtain ⟨c', rfl, h1⟩ := scaled_one h
      obtain ⟨i1, i2⟩ := ih c' h1
      exact ⟨.coalesce i1, answer_sub_pass (fun _ _ => Iff.rfl) (fun _ _ => Iff.rfl) i2⟩
    · obtain ⟨c', rfl, h1⟩ := scaled_one h
      obtain ⟨i1, i2⟩ := ih c' h1
      exact ⟨.spm i1, answer_sub_pass (fun _ _ => Iff.rfl) (fun _ _ => Iff.rfl) i2⟩
  | fetch hk hw _ ih =>
    intro p' h
    obtain ⟨c', rfl, h1⟩ := scaled_one h
    obtain ⟨i1, i2⟩ := ih c' (by rcases hk with rfl | ⟨le, rfl⟩ <;> exact h1)
    refine ⟨.fetch hk hw i1, answer_sub1 (fun a b x e hx => ?_) i2⟩
    rcases hk with rfl | ⟨le, rfl⟩ <;> exact hw [a] [b] x ⟨e, True.intro⟩ hx
  | broadcast _ ih =>
    intro p' h
    obtain ⟨c', rfl, h1⟩ := scaled_one h
    obtain ⟨i1, i2⟩ := ih c' h1
    exact ⟨.broadcast i1, answer_sub_pass (fun _ _ => Iff.rfl) (fun _ _ => Iff.rfl) i2⟩
  | shuffle hp hN _ ih =>
    intro p' h
    obtain ⟨r, rfl, h1⟩ := scaled_one h
    obtain ⟨x', rfl, h2⟩ := scaled_one h1
    obtain ⟨i1, i2⟩ := ih x' h2
    refine ⟨.shuffle hp hN (fun _ => ⟨_, _, _, rfl⟩) ⟨by rintro h' n o ⟨⟩; exact hp, fun _ => rfl⟩ i1, ?_⟩
    exact answer_sub_pass (fun _ _ => Iff.rfl) (fun _ _ => Iff.rfl)
      (answer_sub_pass (fun _ _ => Iff.rfl) (fun _ _ => Iff.rfl) i2)
  | netCoalesce hN hp hh hn _ ih =>
    intro p' h
    obtain ⟨c', rfl, h1⟩ := scaled_one h
    obtain ⟨i1, i2⟩ := ih c' h1
    obtain ⟨a1, a2⟩ := scaled_kind hs h1 hh hn
    exact ⟨.netCoalesce hN hp a1 (fun _ => a2) ((strip_headless a1).symm ▸ i1),
      answer_sub_pass (fun _ _ => Iff.rfl) (fun _ _ => Iff.rfl) i2⟩
  | netBroadcast hN _ ih =>
    intro p' h
    obtain ⟨r, rfl, h1⟩ := scaled_one h
    obtain ⟨x', rfl, h2⟩ := scaled_one h1
    obtain ⟨i1, i2⟩ := ih x' h2
    refine ⟨.netBroadcast hN ⟨_, _, _, rfl, fun _ => rfl⟩ i1, ?_⟩
    exact answer_sub_pass (fun _ _ => Iff.rfl) (fun _ _ => Iff.rfl)
      (answer_sub_pass (fun _ _ => Iff.rfl) (fun _ _ => Iff.rfl) i2)
  | forget _ ih =>
    intro p' h
    obtain ⟨i1, i2⟩ := ih p' h
    exact ⟨.forget i1, i2⟩
  | trivial _ ih =>
    intro p' h
    obtain ⟨i1, i2⟩ := ih p' h
    exact ⟨.trivial i1, i2⟩
  | repFlip _ ih =>
    intro p' h
    obtain ⟨i1, i2⟩ := ih p' h
    exact ⟨.repFlip i1, i2⟩
  | coarsen hE _ ih =>
    intro p' h
    obtain ⟨i1, i2⟩ := ih p' h
    exact ⟨.coarsen hE i1, RowEq.sub_mono hE i2⟩

/-! ### **C08** -/

/-- Planning a plan with boundaries: leaves are scaled up, boundaries are prepared. -/
theorem create_user {dyn : Bool} {p : Plan Row} (hn : hasNet p = true) :
    create env dyn fuel (.plan p) = (do
      let p2 ← prepareUser env fuel p
      if hasNet p2 then .ok (.distributed (.plan p2)) else .ok (.plan p2)) := by
  rw [create]
  · simp only [Phys.hasNet, hn, if_true, Phys.update]
    cases h : prepareUser env fuel p with
    | error e => rfl
    | ok p2 =>
      show (if (!hasNet p2) = true then Except.ok (Phys.plan p2) else .ok (.distributed (.plan p2))) = _
      cases h2 : hasNet p2 <;> simp [h2, bind, Except.bind]
  all_goals simp

/-- **C08** (user-placed boundaries) For every plan in which the user placed boundaries where they may be (`Placed`), with any
task counts, in every session that fixes task counts before running and whose scale-up handlers keep the rows of leaves: planning fails only if a handler does, and if
it succeeds, what the planned query returns, distributed or, if all boundaries were between single tasks, on the
coordinator, is one of the answers of the plan the user wrote. (`Answer` does not know of boundaries.)

Missing for the full claim: boundaries placed otherwise, see `C08_coalesce_above_shuffle_false` and `C12_below_filter_false`; and sessions
that choose task counts while the query runs, where all these queries fail (`C58_user_boundaries_false`). -/
theorem C08_user_boundaries_partial (hs : ScalesToLeaf env) {p : Plan Row} {d} (hn : hasNet p = true)
    (h : Placed env 1 p ⟨1, d, false, .perm⟩) :
    (∀ p1, scaleLeaves env fuel p = .ok p1 → ∃ q, create env false fuel (.plan p) = .ok q)
    ∧ ∀ q, create env false fuel (.plan p) = .ok q →
      ∃ p', ((hasNet p' = true ∧ q = .distributed (.plan p')) ∨ (hasNet p' = false ∧ q = .plan p'))
        ∧ p'.parts = 1 ∧ singleNode p' = distributed p' ∧ ∃ r, Answer p r ∧ (distributed p').Perm r := by
  rw [create_user hn]
  have key : ∀ p1, scaleLeaves env fuel p = .ok p1 → ∃ p2, prepareUser env fuel p = .ok p2 ∧ Legal false 1 p2 ⟨1, d, false, .perm⟩
      ∧ RowEq.perm.sub (Answer p2) (Answer p) := by
    intro p1 h1
    obtain ⟨l, e⟩ := h.scaled hs p1 (scaleLeaves_spec hs h1)
    obtain ⟨p2, id, h2, l2, e2⟩ := l.prepare (keep := false) Nat.one_pos 1
    refine ⟨p2, ?_, l2, e2 ▸ e⟩
    unfold prepareUser
    rw [h1]
    show (do let (p, _) ← lift (prepare false p1 1 1); Except.ok p) = _
    rw [h2]; rfl
  refine ⟨fun p1 h1 => ?_, fun q hq => ?_⟩
  · obtain ⟨p2, h2, _⟩ := key p1 h1
    rw [h2]
    cases hb : hasNet p2 with
    | false => exact ⟨.plan p2, by simp [hb, bind, Except.bind]⟩
    | true => exact ⟨.distributed (.plan p2), by simp [hb, bind, Except.bind]⟩
  · obtain ⟨p2, h2, hq⟩ := mbind_ok hq
    obtain ⟨p1, h1, _⟩ := mbind_ok h2
    obtain ⟨p2', h2', l, e⟩ := key p1 h1
    rw [h2] at h2'; cases h2'
    obtain ⟨a1, r, hr, a2⟩ := l.distributed
    obtain ⟨r', hr', e'⟩ := e r hr
    refine ⟨p2, ?_, a1, distributed_eq a1, r', hr', List.Perm.trans a2 e'⟩
    cases hb : hasNet p2 with
    | false => rw [hb] at hq; cases hq; exact .inr ⟨rfl, rfl⟩
    | true => rw [hb] at hq; cases hq; exact .inl ⟨rfl, rfl⟩

/-! ### The theorem applies -/

namespace Demo

open DD.Tree.Demo

theorem sess_scales : ScalesToLeaf sess := by
  intro p T p' h
  cases p with
  | node k tc cs =>
    cases k
    case leaf => cases h; exact ⟨rfl, rfl, rfl⟩
    all_goals cases h

theorem leaf_placed (ps : List (List (Nat × Nat))) (hne : ps ≠ []) {T : Nat} (hT : 0 < T) :
    Placed sess T (fresh (.leaf ps) []) ⟨ps.length, none, false, .perm⟩ := by
  refine .leaf (fun h => by cases h) fun p' h => ?_
  cases h
  refine ⟨.distLeaf (List.length_pos_iff.mpr hne) (by simp [scaled]) ?_ (by simp) (scaled_perm ps hT), fun d hd => ?_⟩
  · intro v hv
    simp only [scaled, List.mem_map] at hv
    obtain ⟨t, _, rfl⟩ := hv
    simp
  · obtain ⟨_, _, e⟩ := answer_node.mp hd
    exact .of_eq e

/-- A two-step aggregation with boundaries placed by the user: `n` tasks scan and aggregate, `m` finalise. -/
def userSum (n m : Nat) : Plan (Nat × Nat) :=
  fresh (.coalesce none) [fresh (.netCoalesce (2 * m) m 0) [fresh sum.finalOp
    [fresh (.shuffle (fun r => id (sum.key r)) 2 n 0) [fresh (.hashRepart (fun r => id (sum.key r)) 2 none) [fresh sum.partialOp [big]]]]]]

theorem userSum_placed {n m : Nat} (hn : 0 < n) (hm : 0 < m) : Placed sess 1 (userSum n m) ⟨1, none, false, .perm⟩ := by
  refine .gather (P := 2 * m) (.inl rfl) (.netCoalesce (P := 2) hm (by simp [divCeil]; omega) rfl rfl ?_)
  refine .opKeyed (P := 2) (sum.final_keyed id) (by rintro r ⟨⟩) (by rintro _ ⟨⟩) (by simp) rfl rfl ?_
  intro i c h E e1 e2 e3
  match i with
  | 0 =>
    simp at e1 e2 e3
    subst e1; subst e2; subst e3
    exact .shuffle (by decide) hn
      (.opLocal sum.partial_hom sum.partial_reduceOk (by rintro _ ⟨⟩) (leaf_placed _ (by simp) hn))

/-- The plan, if planning succeeded, and whether it is distributed. -/
def outcome : M (Phys (Nat × Nat)) → Option (Bool × List (Nat × Nat))
  | .ok (.distributed (.plan p)) => some (true, distributed p)
  | .ok (.plan p) => some (false, singleNode p)
  | _ => none

/-- A coalesce for two readers, directly above a shuffle between single tasks; two more tasks and a gather above it. -/
def coalesceAboveShuffle : Plan (Nat × Nat) :=
  fresh (.coalesce none) [fresh (.netCoalesce 4 2 0) [fresh keep [fresh (.netCoalesce 2 1 0)
    [fresh (.shuffle Prod.fst 2 1 0) [fresh (.hashRepart Prod.fst 2 none) [big]]]]]]

end Demo

/-- C08 applies to user-placed boundaries: three tasks scan and two finalise, or all is done in one task. -/
example : (∃ p', create Demo.sess false 9 (.plan (Demo.userSum 3 2)) = .ok (.distributed (.plan p')) ∧
      ∃ r, Answer (Demo.userSum 3 2) r ∧ (distributed p').Perm r)
    ∧ (∃ p', create Demo.sess false 9 (.plan (Demo.userSum 1 1)) = .ok (.plan p') ∧
      ∃ r, Answer (Demo.userSum 1 1) r ∧ (singleNode p').Perm r) := by
  constructor
  · have h : (match create Demo.sess false 9 (.plan (Demo.userSum 3 2)) with | .ok (.distributed _) => true | _ => false) = true := by
      decide +kernel
    split at h
    · rename_i q hq
      obtain ⟨p', a, _, _, b⟩ := (C08_user_boundaries_partial Demo.sess_scales (by decide +kernel)
        (Demo.userSum_placed (by decide) (by decide))).2 _ hq
      rcases a with ⟨_, a⟩ | ⟨_, a⟩
      · cases a; exact ⟨p', hq, b⟩
      · cases a
    · cases h
  · have h : (match create Demo.sess false 9 (.plan (Demo.userSum 1 1)) with | .ok (.plan _) => true | _ => false) = true := by
      decide +kernel
    split at h
    · rename_i q hq
      obtain ⟨p', a, _, c, b⟩ := (C08_user_boundaries_partial Demo.sess_scales (by decide +kernel)
        (Demo.userSum_placed (by decide) (by decide))).2 _ hq
      rcases a with ⟨_, a⟩ | ⟨_, a⟩
      · cases a
      · cases a; exact ⟨q, hq, c ▸ b⟩
    · cases h

/-- **C08 is false** for a coalesce the user places directly above a shuffle between single tasks: the shuffle is taken out,
which leaves its repartitioning as the head of the coalesce's input, and that head is taken off, too. The coalesce reads two
partitions of an input that has three: the rows of the third are lost. -/
theorem C08_coalesce_above_shuffle_false :
    Demo.outcome (create Demo.sess false 9 (.plan Demo.coalesceAboveShuffle)) = some (true, [(1, 1), (2, 2), (1, 3), (3, 4), (2, 5), (7, 6)])
    ∧ Answer Demo.coalesceAboveShuffle [(1, 1), (2, 2), (1, 3), (3, 4), (2, 5), (7, 6), (1, 8)]
    ∧ OneAnswer Demo.coalesceAboveShuffle := by
  refine ⟨by decide +kernel, ?_, ?_⟩
  · simp only [Demo.coalesceAboveShuffle, fresh]
    rw [answer_pass (fun _ _ => Iff.rfl), answer_pass (fun _ _ => Iff.rfl)]
    refine answer_one.mpr ⟨[(1, 1), (2, 2), (1, 3), (3, 4), (2, 5), (7, 6), (1, 8)], ?_, by
      show _ = List.filter _ _; decide +kernel⟩
    rw [answer_pass (fun _ _ => Iff.rfl), answer_pass (fun _ _ => Iff.rfl), answer_pass (fun _ _ => Iff.rfl)]
    exact answer_node.mpr ⟨[], ⟨rfl, by simp⟩, rfl⟩
  · refine Det.oneAnswer ?_
    simp only [Demo.coalesceAboveShuffle, DD.Tree.Demo.big, fresh, Det, DetAll, DD.Tree.Demo.keep, Kind.Det, and_true, true_and]
    exact Op.det_det _

end DD.Tree.Create
