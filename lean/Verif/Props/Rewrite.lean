/-
**C79** Worker plan rewrites that meet the documented criteria keep the answer of a query.
-/
import Verif.Lemmas.RewriteRuns
import Verif.Props.NetworkDynamic
import Verif.Props.PlanShape

namespace DD.Tree

open DD.Limit

variable {Row : Type} {env : Env Row}

/-! ### The stages of planned queries have different numbers -/

theorem legal_unary {ph : Bool} {T : Nat} {p : Plan Row} {I : Info Row} (h : Legal ph T p I) : ∀ t, Every (fun _ => Unary) t p := by
  have plain : ∀ {k : Kind Row} {tc cs}, k.isNet = false → k.isHead = false → (∀ c ∈ cs, ∀ t, Every (fun _ => Unary) t c) →
      ∀ t, Every (fun _ => Unary) t (.node k tc cs) := by
    intro k tc cs h1 h2 hcs t
    refine every_node.mpr ⟨?_, fun i c e => hcs c (List.mem_of_getElem? e) _⟩
    rintro (h | h)
    · exact absurd (h1.symm.trans h) (by simp)
    · exact absurd (h2.symm.trans h) (by simp)
  have single : ∀ {k : Kind Row} {tc} {c : Plan Row}, (∀ t, Every (fun _ => Unary) t c) → ∀ t, Every (fun _ => Unary) t (.node k tc [c]) := by
    intro k tc c hc t
    refine every_node.mpr ⟨fun _ => rfl, fun i x e => ?_⟩
    match i with
    | 0 => cases e; exact hc _
    | i + 1 => simp at e
  have headed : ∀ {c : Plan Row}, (c.kind.isHead = true → c.children.length = 1) → (∀ t, Every (fun _ => Unary) t (strip c)) →
      ∀ t, Every (fun _ => Unary) t c := by
    intro c hone hc
    cases c with
    | node k tc cs =>
      cases hk : k.isHead with
      | false =>
        cases cs with
        | nil => exact hc
        | cons x cs => simpa only [strip, hk, Bool.false_eq_true, if_false] using hc
      | true =>
        match cs, hone hk with
        | [x], _ =>
          simp only [strip, hk, if_true] at hc
          exact single hc
  induction h with
  | leaf => exact plain rfl rfl (by simp)
  | distLeaf => exact plain rfl rfl (by simp)
  | opLocal _ _ _ _ ih => exact single ih
  | @opKeyed tc g red cs T P hs Es d' E' hk hred hd' hne hl hl' hcs ih =>
    refine plain rfl rfl fun c hc => ?_
    obtain ⟨i, hi, rfl⟩ := List.getElem_of_mem hc
    exact ih i _ (hs[i]'(by omega)) (Es[i]'(by omega)) (by simp) (by simp) (by simp)
  | @opSingle tc g red cs Es E' hg hred hne hl hcs ih =>
    refine plain rfl rfl fun c hc => ?_
    obtain ⟨i, hi, rfl⟩ := List.getElem_of_mem hc
    exact ih i _ (Es[i]'(by omega)) (by simp) (by simp)
  | joinSafe _ _ _ _ _ ihb ihp => exact plain rfl rfl (by simp; exact ⟨ihb, ihp⟩)
  | joinSingle _ _ _ _ ihb ihp => exact plain rfl rfl (by simp; exact ⟨ihb, ihp⟩)
  | joinPart _ _ _ _ _ ihb ihp => exact plain rfl rfl (by simp; exact ⟨ihb, ihp⟩)
  | @union tc cs T E Ps hne hl hcs ih =>
    refine plain rfl rfl fun c hc => ?_
    obtain ⟨i, hi, rfl⟩ := List.getElem_of_mem hc
    exact ih i _ (Ps[i]'(by omega)) (by simp) (by simp)
  | @ciu tc ws m cs T E k Ps hne hl hm hr ho hcs ih =>
    refine plain rfl rfl fun c hc => ?_
    obtain ⟨i, hi, rfl⟩ := List.getElem_of_mem hc
    exact ih i _ (Ps[i]'(by omega)) (by simp) (by simp)
  | hashRepart _ _ _ ih => exact single ih
  | otherRepart _ _ _ ih => exact single ih
  | coalesce _ ih => exact single ih
  | spm _ ih => exact single ih
  | fetch _ _ _ ih => exact single ih
  | broadcast _ ih => exact single ih
  | shuffle _ _ _ hpos _ ih => exact single (headed hpos.2 ih)
  | netCoalesce _ _ hh _ _ ih => exact single (headed (fun h => absurd (hh.symm.trans h) (by simp)) ih)
  | netBroadcast _ hph _ ih =>
    obtain ⟨n, tc', x, rfl, _⟩ := hph
    exact single (headed (fun _ => rfl) ih)
  | forget _ ih => exact ih
  | trivial _ ih => exact ih
  | repFlip _ ih => exact ih
  | coarsen _ _ ih => exact ih

theorem plan_nums (he : EnvOk env) {p p' : Plan Row} {J : SInfo Row} (h : Src env .pre p J) (hrep : J.rep = false)
    (hroot : RootOk env p J) (hp : plan env p = .ok (some p')) : (stageNums p').Nodup := by
  obtain ⟨p1, p2, p3, id, h1, h2, h3, _, rfl⟩ := plan_steps hp
  obtain ⟨d, hl, _⟩ := injected_src he h hrep hroot h1 h2
  obtain ⟨_, n2, _⟩ := prepare_nums (legal_unary hl 1) h3
  have hnum : stageNums (if env.partialReduce then partialReduce p3 else p3) = stageNums p3 := by
    split
    · exact stageNums_partialReduce p3
    · rfl
  rw [hnum, n2]
  exact List.nodup_range'

theorem dynamic_nums (he : EnvOk env) {p p' : Plan Row} {J : SInfo Row} (h : Src env .pre p J) (hrep : J.rep = false)
    (hroot : RootOk env p J) (hp : dynamicPlan env p = .ok p') : (stageNums p').Nodup := by
  obtain ⟨p1, p2, id, h1, h2, h3⟩ := dynamic_steps hp
  obtain ⟨d, hl, _⟩ := injected_src he h hrep hroot h1 h2
  obtain ⟨_, n2, _⟩ := prepare_nums (legal_unary (hl.sample rfl) 1) h3
  rw [n2]
  exact List.nodup_range'

/-! ### Rewritten plans -/

/-- Without handlers, the plan that was sent runs. -/
theorem C79_no_handlers {T : Nat} {p : Plan Row} {I : Info Row} (h : Legal false T p I) (hn : (stageNums p).Nodup) :
    rewriteStages {} p = .ok p := by
  have hone := h.oneInput
  clear h
  induction hone with
  | @net k tc c hk hone hc ih =>
    have hnd' : (stageNums c).Nodup := by
      rw [stageNums, List.nodup_append] at hn
      exact stageNumsAll_mem hn.1 c (by simp)
    have h1 := ih hnd'
    have h2 : rewriteStage {} c = .ok c := by
      have : rewriteStage (Row := Row) {} c = .ok (connect (stageWith (stageInputs c)) (decoded c)) := rfl
      rw [this, connect_decoded (rewriteStages_top hc h1).1 (stageWith_mem (hnd'.sublist (topNums_sublist c hc)))]
    rw [rewriteStages, rewriteStagesAll, h1, hk]
    simp only [bind, Except.bind, if_true, h2, rewriteStagesAll]
  | @inner k tc cs hk hall ih =>
    have hnd' : ∀ c ∈ cs, (stageNums c).Nodup := by
      rw [stageNums, List.nodup_append] at hn
      exact stageNumsAll_mem hn.1
    have : rewriteStagesAll {} false cs = .ok cs := by
      clear hn hall
      induction cs with
      | nil => rw [rewriteStagesAll]
      | cons c cs ih2 =>
        rw [rewriteStagesAll, ih c (by simp) (hnd' c (by simp))]
        simp only [bind, Except.bind, Bool.false_eq_true, if_false]
        rw [ih2 (fun c hc => ih c (by simp [hc])) fun c hc => hnd' c (by simp [hc])]
    rw [rewriteStages, hk, this]
    rfl

/-- What rewritten plans deliver. -/
theorem legal_rewritten {hs : HandlerChain (RewriteHandler Row)} (hh : ∀ h ∈ hs.custom ++ hs.builtin, KeepsStages h) {p q : Plan Row} {d eqv}
    (hl : Legal false 1 p ⟨1, d, false, eqv⟩) (hn : (stageNums p).Nodup) {o} (ho : Ordered false p o) (hq : rewriteStages hs p = .ok q) :
    Ordered false q o ∧ ∀ l, Delivers q l → ∃ a, Answer p a ∧ eqv.eqv l a := by
  obtain ⟨h1, h2⟩ := rewriteStages_runs hh hl.oneInput hn hq ho
  refine ⟨h1, ?_⟩
  rintro l ⟨r, hr, rfl⟩
  obtain ⟨p', hd, ho', hr'⟩ := h2 r hr
  obtain ⟨hl', e⟩ := hl.deco Nat.one_pos hd
  obtain ⟨a, ha, hg⟩ := hl'.runs_good Nat.one_pos ho' hr' false
  obtain ⟨a', ha', e'⟩ := e a ha
  refine ⟨a', ha', eqv.trans ?_ e'⟩
  have := hg.share rfl
  have hp1 : r.1.parts = 1 := hg.parts
  simpa only [List.range_one, List.flatMap_cons, List.flatMap_nil, List.append_nil, Ran.rows, hp1] using this

/-- **C79** If all handlers of the workers meet the criteria, a distributed query whose stages were all given to the handlers can be
executed, and whatever it delivers is one of the answers of the query, as a single node would return it. (Partial: the criteria are for the
part of the stage a worker keeps, see `Spec/Rewrite.lean`; and what C70 misses.) -/
theorem C79_rewritten_queries_answer_partial (he : EnvOk env) (hs : ScaleKeepsOrder env) {p p' q : Plan Row} {J : SInfo Row}
    (h : Src env .pre p J) (hrep : J.rep = false) (hroot : RootOk env p J) {o} (ho : Ordered false p o)
    (hp : plan env p = .ok (some p')) {hd : HandlerChain (RewriteHandler Row)} (hh : ∀ h ∈ hd.custom ++ hd.builtin, KeepsStages h)
    (hq : rewriteStages hd p' = .ok q) :
    (∃ l, Delivers q l) ∧ ∀ l, Delivers q l → ∃ d, Answer p d ∧ J.eqv.eqv l d := by
  obtain ⟨_, hl, e⟩ := plan_src he h hrep hroot hp
  obtain ⟨h1, h2⟩ := legal_rewritten hh hl (plan_nums he h hrep hroot hp) (plan_ordered hs ho hp) hq
  refine ⟨h1.exists_delivers, fun l hl => ?_⟩
  obtain ⟨a, ha, e1⟩ := h2 l hl
  obtain ⟨a', ha', e2⟩ := e a ha
  exact ⟨a', ha', J.eqv.trans e1 e2⟩

/-- **C79** In order, if the query promises one. -/
theorem C79_rewritten_order_is_kept_partial (he : EnvOk env) (hs : ScaleKeepsOrder env) {p p' q : Plan Row} {J : SInfo Row}
    (h : Src env .pre p J) (hrep : J.rep = false) (hg : J.gathered = true) (hone : J.one = true) {le}
    (ho : Ordered false p (some le)) (hp : plan env p = .ok (some p')) {hd : HandlerChain (RewriteHandler Row)}
    (hh : ∀ h ∈ hd.custom ++ hd.builtin, KeepsStages h) (hq : rewriteStages hd p' = .ok q) :
    (∃ l, Delivers q l) ∧ ∀ l, Delivers q l →
      l.Pairwise (fun x y => le x y = true) ∧ ∃ d, Answer p d ∧ J.eqv.eqv l d := by
  have hroot : RootOk env p J := .inl ⟨hg, hone⟩
  obtain ⟨h1, h2⟩ := C79_rewritten_queries_answer_partial he hs h hrep hroot ho hp hh hq
  refine ⟨h1, fun l hl => ⟨?_, h2 l hl⟩⟩
  obtain ⟨r, hr, rfl⟩ := hl
  obtain ⟨_, hlegal, _⟩ := plan_src he h hrep hroot hp
  have hk : Ordered false p' (some le) := plan_keeps hs hp (fun p1 e => by
    have := (normalize_src he h rfl p1 e).1.one_parts hone
    omega) _ ho
  exact (legal_rewritten hh hlegal (plan_nums he h hrep hroot hp) hk hq).1.sorted hr _ _ _

/-- **C79** With task counts chosen while the query runs. -/
theorem C79_dynamic_rewritten_partial (he : EnvOk env) (hs : ScaleKeepsOrder env) {p p' q : Plan Row} {J : SInfo Row}
    (h : Src env .pre p J) (hrep : J.rep = false) (hroot : RootOk env p J) {o} (ho : Ordered false p o)
    (cpu : Plan Row → Plan Row → Except Err (Option Nat)) (bytes : Nat) (hp : dynamicPlan (env.costing cpu bytes) p = .ok p')
    {hd : HandlerChain (RewriteHandler Row)} (hh : ∀ h ∈ hd.custom ++ hd.builtin, KeepsStages h) (hq : rewriteStages hd p' = .ok q) :
    (∃ l, Delivers q l) ∧ ∀ l, Delivers q l → ∃ d, Answer p d ∧ J.eqv.eqv l d := by
  obtain ⟨_, hl, e⟩ := dynamic_src (he.costing cpu bytes) (h.costing cpu bytes) hrep (hroot.costing cpu bytes) hp
  obtain ⟨h1, h2⟩ := legal_rewritten hh hl (dynamic_nums (he.costing cpu bytes) (h.costing cpu bytes) hrep (hroot.costing cpu bytes) hp)
    (dynamic_ordered_any hs ho cpu bytes hp) hq
  refine ⟨h1.exists_delivers, fun l hl => ?_⟩
  obtain ⟨a, ha, e1⟩ := h2 l hl
  obtain ⟨a', ha', e2⟩ := e a ha
  exact ⟨a', ha', J.eqv.trans e1 e2⟩

/-- **C79** If tasks may fail: a rewritten query that ended without an error returned an answer, and what one that failed returned before
is the beginning of an answer. -/
theorem C79_rewritten_failures_only_cut_partial (he : EnvOk env) (hs : ScaleKeepsOrder env) {p p' q : Plan Row} {J : SInfo Row}
    (h : Src env .pre p J) (hrep : J.rep = false) (hroot : RootOk env p J) {o} (ho : Ordered false p o)
    (hp : plan env p = .ok (some p')) {hd : HandlerChain (RewriteHandler Row)} (hh : ∀ h ∈ hd.custom ++ hd.builtin, KeepsStages h)
    (hq : rewriteStages hd p' = .ok q) {s : Faulty.Seen Row} (hsee : Faulty.ClientSees false q s) :
    ∃ l d, s.rows <+: l ∧ (s.Clean → s.rows = l) ∧ Answer p d ∧ J.eqv.eqv l d := by
  obtain ⟨_, hl, _⟩ := plan_src he h hrep hroot hp
  have hk := (legal_rewritten hh hl (plan_nums he h hrep hroot hp) (plan_ordered hs ho hp) hq).1
  obtain ⟨l, h1, h2, h3⟩ := Faulty.C71_failures_only_cut_partial hk hsee
  obtain ⟨d, hd, e⟩ := (C79_rewritten_queries_answer_partial he hs h hrep hroot ho hp hh hq).2 l h1
  exact ⟨l, d, h2, h3, hd, e⟩

/-- **C79** While the rewritten query runs, over any connections and with any schedule: what the client has received at any time is the
beginning of an answer, and the whole of it once it has seen the end. -/
theorem C79_rewritten_received_so_far_partial {α σ : Type} (he : EnvOk env) (hs : ScaleKeepsOrder env) {p p' q : Plan Row} {J : SInfo Row}
    (h : Src env .pre p J) (hrep : J.rep = false) (hroot : RootOk env p J) {o} (ho : Ordered false p o)
    (hp : plan env p = .ok (some p')) {hd : HandlerChain (RewriteHandler Row)} (hh : ∀ h ∈ hd.custom ++ hd.builtin, KeepsStages h)
    (hq : rewriteStages hd p' = .ok q) (b : Net.Net Nat α σ) {rows : α → Except Err (List Row)} (herr : Net.Reports rows b)
    {st : Net.State Nat α σ} (hr : (Net.planNet q b).Reached st) {s : Faulty.Seen Row} (hgot : Net.ClientGot rows st q s) :
    ∃ l d, s.rows <+: l ∧ (s.Clean → s.rows = l) ∧ Answer p d ∧ J.eqv.eqv l d := by
  obtain ⟨_, hl, _⟩ := plan_src he h hrep hroot hp
  have hk := (legal_rewritten hh hl (plan_nums he h hrep hroot hp) (plan_ordered hs ho hp) hq).1
  obtain ⟨l, h1, h2, h3⟩ := Net.C78_received_is_right hk herr hr hgot
  obtain ⟨d, hd, e⟩ := (C79_rewritten_queries_answer_partial he hs h hrep hroot ho hp hh hq).2 l h1
  exact ⟨l, d, h2, h3, hd, e⟩

/-! ### When handlers run -/

/-- **C79** Handlers run in registration order, each gets the plan the one before it returned, and the first error is the result. -/
theorem C79_registration_order (l : List (RewriteHandler Row)) (p : Plan Row) :
    handleRewrite (.ofRegs (l.map .custom)) p = l.foldlM (fun p h => h p) p := by
  have : ∀ (l : List (RewriteHandler Row)) (c : HandlerChain (RewriteHandler Row)),
      ((l.map HandlerChain.Reg.custom).foldl HandlerChain.register c) = { c with custom := c.custom ++ l } := by
    intro l
    induction l with
    | nil => intro c; simp
    | cons h l ih => intro c; simp only [List.map_cons, List.foldl_cons, ih, HandlerChain.register, List.append_assoc, List.singleton_append]
  rw [handleRewrite, HandlerChain.ofRegs, this, HandlerChain.tryFold]
  simp

theorem decoded_rewritten {hs : HandlerChain (RewriteHandler Row)} : ∀ (p : Plan Row) {q}, rewriteStages hs p = .ok q → decoded q = decoded p
  | .node k tc cs, q, h => by
    rw [rewriteStages] at h
    obtain ⟨cs', h1, h⟩ := bind_ok h
    cases h
    cases hk : k.isNet with
    | true => simp only [decoded, hk, if_true]
    | false =>
      obtain ⟨hl, hi⟩ := rewriteStagesAll_inv h1
      rw [hk] at hi
      simp only [decoded, hk, Bool.false_eq_true, if_false]
      rw [decodedAll_eq, decodedAll_eq]
      congr 1
      refine List.ext_getElem (by simpa using hl) fun i h3 h4 => ?_
      simp only [List.length_map] at h3 h4
      rw [List.getElem_map, List.getElem_map]
      obtain ⟨c1, e1, e2⟩ := hi i cs[i] cs'[i] (by simp) (by simp)
      simp only [Bool.false_eq_true, if_false] at e2
      rw [e2]
      have : sizeOf cs[i] < sizeOf cs := List.sizeOf_lt_of_mem (List.getElem_mem _)
      exact decoded_rewritten cs[i] e1
termination_by p => sizeOf p

/-- **C79** The handlers are given the plan of every stage as it was sent: if they return an error for one of them, the query fails. -/
theorem C79_every_stage_is_given {hs : HandlerChain (RewriteHandler Row)} {T t : Nat} {p x : Plan Row} (hx : At T p t x) :
    x.kind.isNet = true → ∀ {q}, rewriteStages hs p = .ok q → ∀ c ∈ x.children, ∃ s, handleRewrite hs (decoded c) = .ok s := by
  induction hx with
  | @root T p =>
    intro hk q h c hc
    cases p with
    | node k tc cs =>
      rw [rewriteStages] at h
      obtain ⟨cs', h1, h⟩ := bind_ok h
      cases h
      obtain ⟨hl, hi⟩ := rewriteStagesAll_inv h1
      obtain ⟨i, hi', rfl⟩ := List.getElem_of_mem (show c ∈ cs from hc)
      obtain ⟨c1, e1, e2⟩ := hi i cs[i] (cs'[i]'(by omega)) (by simp) (by simp)
      rw [show k.isNet = true from hk, if_pos rfl, rewriteStage] at e2
      obtain ⟨s, e3, _⟩ := bind_ok e2
      rw [decoded_rewritten _ e1] at e3
      exact ⟨s, e3⟩
  | @child T k tc cs i c t x hi _ ih =>
    intro hk q h
    rw [rewriteStages] at h
    obtain ⟨cs', h1, h⟩ := bind_ok h
    cases h
    obtain ⟨hl, hinv⟩ := rewriteStagesAll_inv h1
    have := (List.getElem?_eq_some_iff.mp hi).1
    obtain ⟨c1, e1, _⟩ := hinv i c (cs'[i]'(by omega)) hi (by simp)
    exact ih hk e1

/-! ### Handlers that keep the topology -/

theorem SameTopology.refl : ∀ p : Plan Row, SameTopology p p
  | .node k tc cs => .node (fun _ => rfl) (fun _ => rfl) rfl fun i c c' h1 h2 => by
    rw [h1] at h2
    cases h2
    have : sizeOf c < sizeOf cs := List.sizeOf_lt_of_mem (List.mem_of_getElem? h1)
    exact SameTopology.refl c
termination_by p => sizeOf p

theorem SameTopology.trans {p q r : Plan Row} (h : SameTopology p q) : SameTopology q r → SameTopology p r := by
  induction h generalizing r with
  | @node k k' tc tc' cs cs' h1 h2 h3 _ ih =>
    intro g
    cases g with
    | @node _ k'' _ tc'' _ cs'' g1 g2 g3 g4 =>
      refine .node (fun h => ?_) (fun h => ?_) (by omega) fun i c c' e1 e2 => ?_
      · rcases h with h | h
        · have := h1 (.inl h); subst this
          exact g1 (.inl h)
        · have := g1 (.inr h); subst this
          exact h1 (.inr h)
      · rcases h with h | h
        · have := h2 (.inl h); subst this
          exact g2 (.inl h)
        · have := g2 (.inr h); subst this
          exact h2 (.inr h)
      · have := (List.getElem?_eq_some_iff.mp e1).1
        exact ih i c (cs'[i]'(by omega)) e1 (by simp) (g4 i _ c' (by simp) e2)

theorem handle_topology {hs : HandlerChain (RewriteHandler Row)} (hh : ∀ h ∈ hs.custom ++ hs.builtin, KeepsTopology h) {s s' : Plan Row}
    (h : handleRewrite hs s = .ok s') : SameTopology s s' := by
  unfold handleRewrite HandlerChain.tryFold at h
  generalize hs.custom ++ hs.builtin = l at hh h
  induction l generalizing s with
  | nil => cases h; exact .refl _
  | cons x l ih =>
    rw [List.foldlM_cons] at h
    obtain ⟨s1, h1, h⟩ := bind_ok h
    exact (hh x (by simp) s s1 h1).trans (ih (fun y hy => hh y (by simp [hy])) h)

theorem connect_topology {f : Nat → Plan Row} {s s' : Plan Row} (h : SameTopology s s') : SameTopology (connect f s) (connect f s') := by
  induction h with
  | @node k k' tc tc' cs cs' h1 h2 h3 _ ih =>
    simp only [connect]
    refine .node h1 h2 ?_ ?_
    · cases hk : k.isNet with
      | true => have := h1 (.inl hk); subst this; simp [hk]
      | false =>
        cases hk' : k'.isNet with
        | true => have := h1 (.inr hk'); subst this; rw [hk] at hk'; cases hk'
        | false => simp [connectAll_eq, h3]
    · cases hk : k.isNet with
      | true =>
        have := h1 (.inl hk); subst this
        rw [hk, if_pos rfl, if_pos rfl]
        intro i c c' e1 e2
        rw [e1] at e2; cases e2
        exact .refl _
      | false =>
        cases hk' : k'.isNet with
        | true => have := h1 (.inr hk'); subst this; rw [hk] at hk'; cases hk'
        | false =>
          simp only [Bool.false_eq_true, if_false, connectAll_eq, List.getElem?_map, Option.map_eq_some_iff]
          rintro i _ _ ⟨c, e1, rfl⟩ ⟨c', e2, rfl⟩
          exact ih i c c' e1 e2

theorem rewriteStages_topology {hs : HandlerChain (RewriteHandler Row)} (hh : ∀ h ∈ hs.custom ++ hs.builtin, KeepsTopology h) {p : Plan Row}
    (hp : OneInput p) : (stageNums p).Nodup → ∀ {q}, rewriteStages hs p = .ok q → SameTopology p q := by
  induction hp with
  | @net k tc c hk hone hc ih =>
    intro hnd q hq
    have hnd' : (stageNums c).Nodup := by
      rw [stageNums, List.nodup_append] at hnd
      exact stageNumsAll_mem hnd.1 c (by simp)
    rw [rewriteStages] at hq
    obtain ⟨cs', h1, hq⟩ := bind_ok hq
    cases hq
    obtain ⟨hl, hi⟩ := rewriteStagesAll_inv h1
    refine .node (fun _ => rfl) (fun _ => rfl) hl fun i x y e1 e2 => ?_
    obtain ⟨c1, h2, h3⟩ := hi i x y e1 e2
    match i with
    | i + 1 => simp at e1
    | 0 =>
      cases e1
      rw [hk, if_pos rfl] at h3
      have t1 := ih hnd' h2
      unfold rewriteStage at h3
      obtain ⟨s', h4, h3⟩ := bind_ok h3
      cases h3
      obtain ⟨h5, h6⟩ := rewriteStages_top hc h2
      have := connect_topology (f := stageWith (stageInputs c1)) (handle_topology hh h4)
      rw [connect_decoded h5 (stageWith_mem (by rw [h6]; exact hnd'.sublist (topNums_sublist c hc)))] at this
      exact t1.trans this
  | @inner k tc cs hk hall ih =>
    intro hnd q hq
    have hnd' : ∀ c ∈ cs, (stageNums c).Nodup := by
      rw [stageNums, List.nodup_append] at hnd
      exact stageNumsAll_mem hnd.1
    rw [rewriteStages] at hq
    obtain ⟨cs', h1, hq⟩ := bind_ok hq
    cases hq
    obtain ⟨hl, hi⟩ := rewriteStagesAll_inv h1
    refine .node (fun _ => rfl) (fun _ => rfl) hl fun i x y e1 e2 => ?_
    obtain ⟨c1, h2, h3⟩ := hi i x y e1 e2
    rw [hk] at h3
    simp only [Bool.false_eq_true, if_false] at h3
    subst h3
    exact ih x (List.mem_of_getElem? e1) (hnd' x (List.mem_of_getElem? e1)) h2

theorem sites_topology {p q : Plan Row} (h : SameTopology p q) : ∀ (above next : Nat) (runs : List (Nat × TaskCtx)),
    Net.sites above next runs q = Net.sites above next runs p := by
  have all : ∀ {cs cs' : List (Plan Row)}, cs'.length = cs.length →
      (∀ (i : Nat) c c', cs[i]? = some c → cs'[i]? = some c' → ∀ above next runs, Net.sites above next runs c' = Net.sites above next runs c) →
      ∀ above next runs, Net.sitesAll above next runs cs' = Net.sitesAll above next runs cs := by
    intro cs
    induction cs with
    | nil =>
      intro cs' hl _ above next runs
      obtain rfl := List.length_eq_zero_iff.mp hl
      rfl
    | cons c cs ih =>
      intro cs' hl h above next runs
      cases cs' with
      | nil => simp at hl
      | cons c' cs' =>
        rw [Net.sitesAll, Net.sitesAll, h 0 c c' rfl rfl,
          ih (by simpa using hl) fun i x y e1 e2 => h (i + 1) x y (by simpa using e1) (by simpa using e2)]
  induction h with
  | @node k k' tc tc' cs cs' h1 h2 h3 _ ih =>
    intro above next runs
    rw [Net.sites, Net.sites]
    cases hk : k.isNet with
    | true =>
      have := h1 (.inl hk); subst this
      rw [if_pos hk, if_pos rfl, all h3 ih]
    | false =>
      have hk' : k'.isNet = false := by
        cases hk' : k'.isNet with
        | true => have := h1 (.inr hk'); subst this; rw [hk] at hk'; cases hk'
        | false => rfl
      rw [if_neg (by simp [hk']), if_neg (by simp)]
      have : Net.runsBelow k' runs = Net.runsBelow k runs := by
        by_cases hc : (∃ ws m, k = .ciu ws m) ∨ ∃ ws m, k' = .ciu ws m
        · rw [h2 hc]
        · have e : ∀ {k : Kind Row}, k.isNet = false → (¬ ∃ ws m, k = .ciu ws m) → ∀ ctx i, Rec.childCtx k ctx i = some ctx := by
            intro k h1 h2 ctx i
            cases k <;> first | rfl | (cases h1; done) | exact absurd ⟨_, _, rfl⟩ h2
          funext i
          unfold Net.runsBelow
          congr 1
          funext r
          rw [e hk fun h => hc (.inl h), e hk' fun h => hc (.inr h)]
      rw [this, all h3 ih]

/-- **C79** If the handlers keep the topology, tasks ask each other for the same partitions as without them. -/
theorem C79_same_network {α σ : Type} (he : EnvOk env) {p p' q : Plan Row} {J : SInfo Row}
    (h : Src env .pre p J) (hrep : J.rep = false) (hroot : RootOk env p J) (hp : plan env p = .ok (some p'))
    {hd : HandlerChain (RewriteHandler Row)} (hh : ∀ h ∈ hd.custom ++ hd.builtin, KeepsTopology h)
    (hq : rewriteStages hd p' = .ok q) (b : Net.Net Nat α σ) : Net.planNet q b = Net.planNet p' b := by
  obtain ⟨_, hl, _⟩ := plan_src he h hrep hroot hp
  have := rewriteStages_topology hh hl.oneInput (plan_nums he h hrep hroot hp) hq
  unfold Net.planNet Net.planSites
  rw [sites_topology this]

/-- **C79** Rewritten queries end, and what the client has received in the end is an answer, as in
`C78_queries_end_with_an_answer_partial`. -/
theorem C79_rewritten_queries_end_partial {α σ : Type} (he : EnvOk env) (hs : ScaleKeepsOrder env) {p p' q : Plan Row} {J : SInfo Row}
    (h : Src env .pre p J) (hrep : J.rep = false) (hroot : RootOk env p J) {o} (ho : Ordered false p o)
    (hp : plan env p = .ok (some p')) {hd : HandlerChain (RewriteHandler Row)}
    (hh : ∀ h ∈ hd.custom ++ hd.builtin, KeepsStages h ∧ KeepsTopology h) (hq : rewriteStages hd p' = .ok q)
    (b : Net.Net Nat α σ) (hroom : Net.Room b) {rows : α → Except Err (List Row)} (herr : Net.Reports rows b) (sched : Nat → Net.Step Nat)
    (hfair : (Net.planNet q b).Fair sched) :
    ∃ T, ∀ t, T ≤ t → (Net.planNet q b).Finished (((Net.planNet q b).inOrder id).runFor sched t)
      ∧ ∀ s, Net.ClientGot rows (((Net.planNet q b).inOrder id).runFor sched t) q s → s.Clean → ∃ d, Answer p d ∧ J.eqv.eqv s.rows d := by
  have e := C79_same_network he h hrep hroot hp (fun x hx => (hh x hx).2) hq b
  rw [e] at hfair
  obtain ⟨T, hT⟩ := Net.C77_planned_queries_end_partial he h hrep hroot hp b hroom sched hfair
  rw [← e] at hT
  refine ⟨T, fun t ht => ⟨hT t ht, fun s hgot hclean => ?_⟩⟩
  have hre : (Net.planNet q ((Net.planNet q b).inOrder id)).Reached (((Net.planNet q b).inOrder id).runFor sched t) :=
    Net.Net.runFor_reached _ sched t
  obtain ⟨l, d, _, h2, hd, e⟩ := C79_rewritten_received_so_far_partial he hs h hrep hroot ho hp (fun x hx => (hh x hx).1) hq
    ((Net.planNet q b).inOrder id) herr hre hgot
  rw [h2 hclean]
  exact ⟨d, hd, e⟩

/-! ### A handler -/

namespace Demo

/-- An operator in place of `g` that returns the rows backwards. -/
def backwards {Row : Type} (g : Op Row) : Op Row where
  exec := fun w ctx q as => (g.stream w ctx q as).reverse
  may := fun _ _ => True
  ok := fun _ _ _ _ => True.intro
  needs := g.needs

/-- Replaces an operator at the root of a stage, if it promises no order. -/
def handler : RewriteHandler (Nat × Nat) := fun s => match s with
  | .node (.op g red) tc cs => match g.order with
    | none => .ok (.node (.op (backwards g) red) tc cs)
    | some _ => .ok s
  | s => .ok s

theorem handler_keeps : KeepsStages handler := by
  intro s s' h
  unfold handler at h
  split at h
  · rename_i g red tc cs
    split at h
    · rename_i hg
      cases h
      refine ⟨fun f r hr => ?_, fun f o ho => ?_⟩
      · simp only [connect, Kind.isNet, Bool.false_eq_true, if_false] at hr ⊢
        obtain ⟨rs, h1, h2, h3, h4⟩ := runs_node.mp hr
        refine ⟨(⟨r.1.parts, fun w ctx q => (r.1.exec w ctx q).reverse⟩, ⟨r.1.parts, fun w ctx q => (r.1.exec w ctx q).reverse⟩),
          runs_node.mpr ⟨rs, h1, h2, fun w ctx q => ?_, rfl⟩, ?_⟩
        · have := h3 w ctx q
          simp only [Emits, backwards] at this ⊢
          rw [this, List.reverse_reverse]
        · rw [show r.2 = r.1 from h4]
          exact ⟨rfl, fun ctx q => (List.reverse_perm _).symm⟩
      · simp only [connect, Kind.isNet, Bool.false_eq_true, if_false] at ho ⊢
        obtain ⟨a, a1, a2, a3⟩ := ho.inv
        refine .node a a1 a2 fun le e => ?_
        have : g.order = some le := a3 le e
        rw [hg] at this
        cases this
    · cases h
      exact .refl _
  · cases h
    exact .refl _

theorem handler_topology : KeepsTopology handler := by
  intro s s' h
  unfold handler at h
  split at h
  · split at h
    · cases h
      refine .node (by rintro (⟨⟨⟩⟩ | ⟨⟨⟩⟩)) (by rintro (⟨_, _, ⟨⟩⟩ | ⟨_, _, ⟨⟩⟩)) rfl fun i c c' e1 e2 => ?_
      rw [e1] at e2; cases e2
      exact .refl _
    · cases h
      exact .refl _
  · cases h
    exact .refl _

/-- The plan with the operator at the root of its last stage changed. -/
def changed : Plan (Nat × Nat) → Bool
  | .node _ _ [.node _ _ [.node (.op g _) _ _]] => g.exec true ⟨0, 1⟩ 0 [[(0, 1), (1, 2)]] == [(1, 2), (0, 1)]
  | _ => false

end Demo

/-- Non-vacuity: a join in three tasks, whose filter the handler replaced by one that returns the rows backwards. -/
example : ∃ p' q, plan Demo.sess Demo.input = .ok (some p') ∧ rewriteStages ⟨[], [Demo.handler]⟩ p' = .ok q ∧ Demo.changed p' = false
    ∧ Demo.changed q = true ∧ KeepsStages Demo.handler ∧ KeepsTopology Demo.handler
    ∧ (∃ l, Delivers q l) ∧ ∀ l, Delivers q l → ∃ d, Answer Demo.input d ∧ l.Perm d := by
  obtain ⟨p', hp⟩ := planned_of (env := Demo.sess) (p := Demo.input) (by decide +kernel)
  have hch : (match plan Demo.sess Demo.input with
    | .ok (some p') => match rewriteStages ⟨[], [Demo.handler]⟩ p' with
      | .ok q => !Demo.changed p' && Demo.changed q
      | _ => false
    | _ => false) = true := by decide +kernel
  rw [hp] at hch; dsimp only at hch
  cases hq : rewriteStages ⟨[], [Demo.handler]⟩ p' with
  | error e => rw [hq] at hch; cases hch
  | ok q =>
    rw [hq] at hch
    simp only [Bool.and_eq_true, Bool.not_eq_true'] at hch
    refine ⟨p', q, hp, hq, hch.1, hch.2, Demo.handler_keeps, Demo.handler_topology, ?_⟩
    exact C79_rewritten_queries_answer_partial Demo.sess_ok Demo.sess_keeps_order Demo.input_src rfl (.inr (by
      intro p1 h1
      have : normalize Demo.sess Demo.input = .ok Demo.input := by rfl
      rw [this] at h1; cases h1
      exact ⟨by decide +kernel, rfl⟩)) Demo.input_ordered hp (hd := ⟨[], [Demo.handler]⟩) (by
        intro h hm
        simp only [List.append_nil, List.mem_singleton] at hm
        subst hm
        exact Demo.handler_keeps) hq

end DD.Tree
