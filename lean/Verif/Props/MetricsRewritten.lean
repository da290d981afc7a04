/-
**C44** Metrics of plans that were rewritten on the worker.
-/
import Verif.Props.MetricsDynamic
import Verif.Spec.MetricsRewritten

namespace DD.Metrics

open DD.Tree DD.Tree.Rec

variable {Row V : Type}

theorem sameTopologyAll_get : ∀ (cs cs' : List (Plan Row)), SameTopologyAll cs cs' → ∀ i : Nat,
    (cs[i]? = none ∧ cs'[i]? = none) ∨ ∃ c c', cs[i]? = some c ∧ cs'[i]? = some c' ∧ SameTopology c c'
  | [], [], _, i => .inl ⟨rfl, rfl⟩
  | [], _ :: _, h, _ => by unfold SameTopologyAll at h; exact h.elim
  | _ :: _, [], h, _ => by unfold SameTopologyAll at h; exact h.elim
  | c :: cs, c' :: cs', h, i => by
    unfold SameTopologyAll at h
    cases i with
    | zero => exact .inr ⟨c, c', rfl, rfl, h.1⟩
    | succ i => simpa using sameTopologyAll_get cs cs' h.2 i

/-- Which positions a traversal visits depends on the topology only. -/
theorem visit_topology : ∀ (p q : Plan Row), SameTopology p q → ∀ ctx, visit q ctx = visit p ctx
  | .node k tc cs, .node k' tc' cs', h, ctx => by
    unfold SameTopology at h
    obtain ⟨hn, hciu, hall⟩ := h
    rcases isCiu k with ⟨ws, m, rfl⟩ | hk
    · obtain ⟨ws', rfl⟩ := (hciu m).1 ⟨ws, rfl⟩
      have hall := hall rfl
      unfold visit
      simp only
      cases m[ctx.index]? with
      | none => rfl
      | some es =>
        simp only
        have hes : visitEntries cs' es = visitEntries cs es := by
          induction es with
          | nil => simp [visitEntries]
          | cons e es ih =>
            unfold visitEntries
            rw [ih, visitNth_eq, visitNth_eq]
            rcases sameTopologyAll_get cs cs' hall e.1 with ⟨h1, h2⟩ | ⟨c, c', h1, h2, h3⟩
            · rw [h1, h2]
            · have : c ∈ cs := List.mem_of_getElem? h1
              rw [h1, h2]
              simp only
              rw [visit_topology c c' h3]
        rw [hes]
    · have hk' : ∀ ws m, k' ≠ .ciu ws m := fun ws m e => by
        obtain ⟨ws', e'⟩ := (hciu m).2 ⟨ws, e⟩
        exact hk ws' m e'
      rw [visit_other hk, visit_other hk', ← hn]
      by_cases hnet : k.isNet = true
      · simp [hnet]
      · simp only [hnet]
        have hall := hall (by simpa using hnet)
        have key : ∀ (ds ds' : List (Plan Row)), (∀ d ∈ ds, d ∈ cs) → SameTopologyAll ds ds' → ∀ n,
            visitAll n ds' ctx = visitAll n ds ctx := by
          intro ds
          induction ds with
          | nil =>
            intro ds' _ h n
            cases ds' with
            | nil => rfl
            | cons _ _ => unfold SameTopologyAll at h; exact h.elim
          | cons d ds ih =>
            intro ds' hm h n
            cases ds' with
            | nil => unfold SameTopologyAll at h; exact h.elim
            | cons d' ds' =>
              unfold SameTopologyAll at h
              unfold visitAll
              have : d ∈ cs := hm d (by simp)
              rw [visit_topology d d' h.1, ih ds' (fun x hx => hm x (by simp [hx])) h.2]
        rw [key cs cs' (fun _ h => h) hall 0]
termination_by p => sizeOf p
decreasing_by all_goals simp_wf; have := List.sizeOf_lt_of_mem ‹_ ∈ cs›; omega

mutual
theorem sameTopology_trans : ∀ (p q r : Plan Row), SameTopology p q → SameTopology q r → SameTopology p r
  | .node k tc cs, .node k' tc' cs', .node k'' tc'' cs'', h1, h2 => by
    unfold SameTopology at h1 h2 ⊢
    exact ⟨h1.1.trans h2.1, fun m => (h1.2.1 m).trans (h2.2.1 m), fun hn =>
      sameTopologyAll_trans cs cs' cs'' (h1.2.2 hn) (h2.2.2 (h1.1 ▸ hn))⟩
theorem sameTopologyAll_trans : ∀ (p q r : List (Plan Row)), SameTopologyAll p q → SameTopologyAll q r → SameTopologyAll p r
  | [], [], [], _, _ => by unfold SameTopologyAll; exact True.intro
  | _ :: _, [], _, h, _ => by unfold SameTopologyAll at h; exact h.elim
  | [], _ :: _, _, h, _ => by unfold SameTopologyAll at h; exact h.elim
  | _, [], _ :: _, _, h => by unfold SameTopologyAll at h; exact h.elim
  | _, _ :: _, [], _, h => by unfold SameTopologyAll at h; exact h.elim
  | p :: ps, q :: qs, r :: rs, h1, h2 => by
    unfold SameTopologyAll at h1 h2 ⊢
    exact ⟨sameTopology_trans p q r h1.1 h2.1, sameTopologyAll_trans ps qs rs h1.2 h2.2⟩
end

mutual
theorem sameTopology_decoded : ∀ (p : Plan Row), SameTopology p (decoded p)
  | .node k tc cs => by
    unfold decoded SameTopology
    refine ⟨rfl, fun _ => Iff.rfl, fun hn => ?_⟩
    rw [hn]
    exact sameTopologyAll_decoded cs
theorem sameTopologyAll_decoded : ∀ (cs : List (Plan Row)), SameTopologyAll cs (decodedAll cs)
  | [] => by unfold decodedAll SameTopologyAll; exact True.intro
  | c :: cs => by
    unfold decodedAll SameTopologyAll
    exact ⟨sameTopology_decoded c, sameTopologyAll_decoded cs⟩
end

/-- Heads are put on a rewritten plan just as on the plan itself if the rewrite leaves repartitionings and broadcasts at the root alone. -/
theorem insert_topology {hd : Head Row} {p q w : Plan Row} (hfix : hd.insert p = .ok p)
    (hone : p.kind.isHead = true → p.children.length = 1) (ht : SameTopology p q) (hk : q.kind.isHead = p.kind.isHead)
    (hw : hd.insert q = .ok w) : SameTopology p w := by
  obtain ⟨k, tc, cs⟩ := p
  obtain ⟨k', tc', cs'⟩ := q
  simp only [Plan.kind, Plan.children] at hone hk
  have hstrip : ∀ {h : Kind Row} {tc₁ : TaskCount}, h.isHead = true →
      Plan.node h tc₁ [strip (.node k tc cs)] = .node k tc cs → ∀ h' tc₂, h'.isHead = true →
      SameTopology (.node k tc cs) (.node h' tc₂ [strip (.node k' tc' cs')]) := by
    intro h tc₁ hh e h' tc₂ hh'
    have hkh : k.isHead = true := by have e' := congrArg Plan.kind e; exact (show h = k from e') ▸ hh
    have hlen := hone hkh
    rw [List.length_eq_one_iff] at hlen
    obtain ⟨y, rfl⟩ := hlen
    unfold SameTopology at ht ⊢
    have hnet := isHead_isNet hkh
    have hall := ht.2.2 hnet
    have hciu : ∀ {x : Kind Row}, x.isHead = true → ∀ m, ¬ ∃ ws, x = .ciu ws m := by
      rintro x hx m ⟨ws, rfl⟩; cases hx
    refine ⟨hnet.trans (isHead_isNet hh').symm, fun m => ⟨fun h => (hciu hkh m h).elim, fun h => (hciu hh' m h).elim⟩, fun _ => ?_⟩
    match cs', hall with
    | [], h => unfold SameTopologyAll at h; exact h.elim
    | y' :: rest, h =>
      have e2 : strip (.node k' tc' (y' :: rest)) = y' := by simp [strip, hk.trans hkh]
      rw [e2]
      unfold SameTopologyAll at h ⊢
      refine ⟨h.1, ?_⟩
      unfold SameTopologyAll
      exact True.intro
  cases hd with
  | none =>
    have e : strip (.node k tc cs) = .node k tc cs := Except.ok.inj hfix
    have hkh : k.isHead = false := by
      by_contra hkh
      have hkh : k.isHead = true := by simpa using hkh
      have hlen := hone hkh
      rw [List.length_eq_one_iff] at hlen
      obtain ⟨y, rfl⟩ := hlen
      have e2 : strip (.node k tc [y]) = y := by simp [strip, hkh]
      rw [e2] at e
      have := congrArg sizeOf e
      simp at this
      omega
    have e2 : strip (.node k' tc' cs') = w := Except.ok.inj hw
    rw [strip_noop (by exact hk.trans hkh)] at e2
    exact e2 ▸ ht
  | repartition g n =>
    have e : Plan.node (.hashRepart g n none) _ [strip (.node k tc cs)] = .node k tc cs := Except.ok.inj hfix
    have e2 : Plan.node (.hashRepart g n none) _ [strip (.node k' tc' cs')] = w := Except.ok.inj hw
    rw [← e2]
    exact hstrip rfl e _ _ rfl
  | broadcast n =>
    unfold Head.insert at hfix hw
    simp only at hfix hw
    obtain ⟨b, _, h1⟩ := bind_ok hfix
    obtain ⟨b', _, h2⟩ := bind_ok hw
    have e := Except.ok.inj h1
    have e2 := Except.ok.inj h2
    rw [← e2]
    exact hstrip rfl e _ _ rfl

mutual
theorem sameTopology_refl : ∀ (p : Plan Row), SameTopology p p
  | .node k tc cs => by
    unfold SameTopology
    exact ⟨rfl, fun _ => Iff.rfl, fun _ => sameTopologyAll_refl cs⟩
theorem sameTopologyAll_refl : ∀ (cs : List (Plan Row)), SameTopologyAll cs cs
  | [] => by unfold SameTopologyAll; exact True.intro
  | c :: cs => by unfold SameTopologyAll; exact ⟨sameTopology_refl c, sameTopologyAll_refl cs⟩
end

theorem handleRewrite_topology {handlers : HandlerChain (RewriteHandler Row)}
    (hh : ∀ h ∈ handlers.custom ++ handlers.builtin, KeepsTopology h) {p q : Plan Row} (h : handleRewrite handlers p = .ok q) :
    SameTopology p q ∧ (q.kind.isHead = true ↔ p.kind.isHead = true) := by
  unfold handleRewrite HandlerChain.tryFold at h
  generalize handlers.custom ++ handlers.builtin = l at h hh
  induction l generalizing p with
  | nil => cases h; exact ⟨sameTopology_refl _, Iff.rfl⟩
  | cons x xs ih =>
    rw [List.foldlM_cons] at h
    obtain ⟨p', h1, h2⟩ := bind_ok h
    obtain ⟨t1, k1⟩ := hh x (by simp) p p' h1
    obtain ⟨t2, k2⟩ := ih h2 (fun y hy => hh y (by simp [hy]))
    exact ⟨sameTopology_trans _ _ _ t1 t2, k2.trans k1⟩

/-- A task whose plan was rewritten reports what it would report for the plan it was sent. -/
theorem report_rewritten {ph : Bool} {N : Nat} {c : Plan Row} {I : Info Row} (h : Legal ph N (strip c) I)
    (hh : c.kind.isHead = true → c.children.length = 1) {hd : Head Row} (hfix : hd.insert c = .ok c)
    {handlers : HandlerChain (RewriteHandler Row)} (hk : ∀ h ∈ handlers.custom ++ handlers.builtin, KeepsTopology h)
    {recorded : Path → List (Metric V)} {i : Nat} (hi : i < N) {q w r} (hq : handleRewrite handlers (decoded (share ⟨i, N⟩ c)) = .ok q)
    (hw : hd.insert q = .ok w) (hr : report w ⟨i, N⟩ recorded = .ok r) :
    hd.insert (share ⟨i, N⟩ c) = .ok (share ⟨i, N⟩ c) ∧ report (share ⟨i, N⟩ c) ⟨i, N⟩ recorded = .ok r := by
  have hfix' := insert_share (legal_ok h ⟨i, N⟩ hi) hfix
  obtain ⟨h2, h3⟩ := handleRewrite_topology hk hq
  have hsh : (share ⟨i, N⟩ c).kind.isHead = true → (share ⟨i, N⟩ c).children.length = 1 := by
    intro hk
    have hk : c.kind.isHead = true := by rwa [share_kind] at hk
    have hlen := hh hk
    obtain ⟨k, tc, cs⟩ := c
    have hn : k.isNet = false := isHead_isNet hk
    rw [share_node (by rintro _ _ rfl; cases hk), hn]
    simpa [Plan.children, shareAll_eq] using hlen
  have hdk : ∀ p : Plan Row, (decoded p).kind = p.kind := fun | .node _ _ _ => by unfold decoded; rfl
  rw [hdk] at h3
  have ht := insert_topology hfix' hsh (sameTopology_trans _ _ _ (sameTopology_decoded _) h2) (Bool.eq_iff_iff.2 h3) hw
  unfold report at hr ⊢
  rw [visit_topology _ _ ht] at hr
  exact ⟨hfix', hr⟩

/-- **C44** (one stage, rewritten on the workers) The plan `c` of a stage has the head `hd` the stage's consumers ask for and can be
executed by `N` tasks. Each worker decodes the share of its task, gives it to its handlers, which keep its topology, runs the result and
reports what its nodes recorded. Then showing the metrics succeeds, and every node of the stage gets, for each task that runs it, what
the task recorded for the node at that position. -/
theorem C44_rewritten_stage {ph : Bool} {N : Nat} {c : Plan Row} {I : Info Row} (h : Legal ph N (strip c) I)
    (hh : c.kind.isHead = true → c.children.length = 1) {hd : Head Row} (hfix : hd.insert c = .ok c)
    {addr : Path → Nat} (hdist : Distinct addr c) {query num : Nat} {store : Store V}
    {recorded : Nat → Path → List (Metric V)} {handlers : Nat → HandlerChain (RewriteHandler Row)}
    (hk : ∀ i < N, ∀ h ∈ (handlers i).custom ++ (handlers i).builtin, KeepsTopology h)
    (hstore : ∀ i < N, ∃ q w r, handleRewrite (handlers i) (decoded (share ⟨i, N⟩ c)) = .ok q
      ∧ hd.insert q = .ok w ∧ report w ⟨i, N⟩ (recorded i) = .ok r ∧ store ⟨query, num, i⟩ = some r) (f : Format) :
    stageRewrite f addr query num N store c = .ok ((nodes c).map fun x => (x, expected f N c recorded x)) := by
  refine C44_stage h hh hfix hdist (fun i hi => ?_) f
  obtain ⟨q, w, r, h1, h2, h3, h4⟩ := hstore i hi
  obtain ⟨g1, g2⟩ := report_rewritten h hh hfix (hk i hi) hi h1 h2 h3
  exact ⟨_, r, g1, g2, h4⟩

theorem reported_of_rewritten {p' : Plan Row} {I : Info Row} (hl : Legal false 1 p' I)
    (hheads : ∀ t x c, At 1 p' t x → x.kind.isNet = true → x.children = [c] →
      (∀ P n i, x.kind = .netCoalesce P n i → c.kind.isHead = false) → (x.kind.head t).insert c = .ok c)
    {handlers : HandlerChain (RewriteHandler Row)} (hk : ∀ h ∈ handlers.custom ++ handlers.builtin, KeepsTopology h) {query : Nat}
    {store : Store V} {recorded : Nat → Nat → Path → List (Metric V)} (hstore : ReportedRewritten handlers p' query store recorded) :
    ∀ t x c, At 1 p' t x → x.kind.isNet = true → x.children = [c] → ∀ i < x.kind.tasks,
      ∃ w r, workerPlan x.kind t (share ⟨i, x.kind.tasks⟩ c) = .ok w
        ∧ report w ⟨i, x.kind.tasks⟩ (recorded x.kind.num i) = .ok r ∧ store ⟨query, x.kind.num, i⟩ = some r := by
  intro t x c hat hn hc i hi
  obtain ⟨q, w, r, h1, h2, h3, h4⟩ := hstore t x c hat hn hc i hi
  obtain ⟨c', I', e, g1, g2, g3⟩ := legal_sub hl hat hn
  rw [e] at hc
  cases hc
  obtain ⟨k1, k2⟩ := report_rewritten g2 g1 (hheads t x _ hat hn e g3) hk hi h1 h2 h3
  exact ⟨_, r, k1, k2, h4⟩

/-- **C44** (rewritten on the workers) As `C44_shown_where_recorded_partial`, when the workers rewrite their plans and all handlers keep
the topology of the plans. -/
theorem C44_rewritten_partial {env : Env Row} (he : EnvOk env) (hs : ScalesLeaves env) {p p' : Plan Row}
    (hu : Undistributed p) {J : SInfo Row} (hsrc : Src env .pre p J) (hrep : J.rep = false) (hroot : RootOk env p J)
    (hp : plan env p = .ok (some p')) (hpr : env.partialReduce = false)
    {handlers : HandlerChain (RewriteHandler Row)} (hk : ∀ h ∈ handlers.custom ++ handlers.builtin, KeepsTopology h)
    {addr : Nat → Path → Nat} {query : Nat} {store : Store V} {headRecorded : Path → List (Metric V)}
    {recorded : Nat → Nat → Path → List (Metric V)}
    (hdist : ∀ t x c, At 1 p' t x → x.kind.isNet = true → x.children = [c] → Distinct (addr x.kind.num) c)
    (hstore : ReportedRewritten handlers p' query store recorded) (f : Format) :
    ∃ shown, rewritePlan f addr query store p' headRecorded = .ok shown
      ∧ shown.head = (nodes p').map (fun x => (x, (headRecorded x).map (shownFor f 0)))
      ∧ (shown.stages.map (·.1)).Perm (stageNums p') ∧ (shown.stages.map (·.1)).Nodup
      ∧ ∀ t x c, At 1 p' t x → x.kind.isNet = true → x.children = [c] →
        (x.kind.num, (nodes c).map fun y => (y, expected f x.kind.tasks c (recorded x.kind.num) y)) ∈ shown.stages := by
  obtain ⟨d, hl, _⟩ := plan_src he hsrc hrep hroot hp
  have hheads := fun t x c hat hn hc hco => planned_heads (t := t) (x := x) (c := c) he hs hu hp hpr hat hn hc hco
  exact shown_of_heads hl (C21_stage_numbers he hs hu hp).2.1 hheads hdist (reported_of_rewritten hl hheads hk hstore) f

/-- **C44** (made while the query runs, rewritten on the workers) As `C44_dynamic_shown_where_recorded`, when the workers rewrite their
plans and all handlers keep the topology of the plans. -/
theorem C44_dynamic_rewritten {env : Env Row} (he : EnvOk env) (hs : ScalesLeaves env) {p p' : Plan Row}
    (hu : Undistributed p) {J : SInfo Row} (hsrc : Src env .pre p J) (hrep : J.rep = false) (hroot : RootOk env p J)
    (cpu : Plan Row → Plan Row → Except Err (Option Nat)) (bytes : Nat)
    (hp : dynamicPlan (env.costing cpu bytes) p = .ok p')
    {handlers : HandlerChain (RewriteHandler Row)} (hk : ∀ h ∈ handlers.custom ++ handlers.builtin, KeepsTopology h)
    {addr : Nat → Path → Nat} {query : Nat} {store : Store V} {headRecorded : Path → List (Metric V)}
    {recorded : Nat → Nat → Path → List (Metric V)}
    (hdist : ∀ t x c, At 1 p' t x → x.kind.isNet = true → x.children = [c] → Distinct (addr x.kind.num) c)
    (hstore : ReportedRewritten handlers p' query store recorded) (f : Format) :
    ∃ shown, rewritePlan f addr query store p' headRecorded = .ok shown
      ∧ shown.head = (nodes p').map (fun x => (x, (headRecorded x).map (shownFor f 0)))
      ∧ (shown.stages.map (·.1)).Perm (stageNums p') ∧ (shown.stages.map (·.1)).Nodup
      ∧ ∀ t x c, At 1 p' t x → x.kind.isNet = true → x.children = [c] →
        (x.kind.num, (nodes c).map fun y => (y, expected f x.kind.tasks c (recorded x.kind.num) y)) ∈ shown.stages := by
  have he' := he.costing cpu bytes
  obtain ⟨d, hl, _⟩ := dynamic_src he' (hsrc.costing cpu bytes) hrep (hroot.costing cpu bytes) hp
  have hheads := fun t x c hat hn hc hco => dynamic_heads (t := t) (x := x) (c := c) he' hs hu hp hat hn hc hco
  exact shown_of_heads hl (dynamic_nums he' (hsrc.costing cpu bytes) hrep (hroot.costing cpu bytes) hp) hheads hdist
    (reported_of_rewritten hl hheads hk hstore) f

/-! ### The topology is not enough -/

theorem visit_root {p : Plan Row} {ctx : TaskCtx} {l : List Path} (h : visit p ctx = .ok l) : ∃ l', l = [] :: l' := by
  obtain ⟨k, tc, cs⟩ := p
  rcases isCiu k with ⟨ws, m, rfl⟩ | hk
  · unfold visit at h
    simp only at h
    cases hm : m[ctx.index]? with
    | none => rw [hm] at h; cases h
    | some es =>
      rw [hm] at h
      obtain ⟨rest, _, e⟩ := bind_ok h
      cases e
      exact ⟨rest, rfl⟩
  · rw [visit_other hk] at h
    by_cases hn : k.isNet = true
    · rw [if_pos hn] at h; cases h; exact ⟨[], rfl⟩
    · rw [if_neg hn] at h
      obtain ⟨rest, _, e⟩ := bind_ok h
      cases e
      exact ⟨rest, rfl⟩

/-- A handler that replaces a repartitioning or broadcast at the root by another node over the same input, as a node that wraps it to trace
it would be. -/
def instrument (g : Op Row) (r : Option (Op Row)) : RewriteHandler Row
  | .node k tc cs => .ok (.node (if k.isHead then .op g r else k) tc cs)

theorem instrument_topology (g : Op Row) (r : Option (Op Row)) (p : Plan Row) : ∃ q, instrument g r p = .ok q ∧ SameTopology p q := by
  obtain ⟨k, tc, cs⟩ := p
  refine ⟨_, rfl, ?_⟩
  unfold SameTopology
  by_cases hk : k.isHead = true
  · rw [if_pos hk]
    refine ⟨isHead_isNet hk, fun m => ⟨?_, ?_⟩, fun _ => sameTopologyAll_refl cs⟩
    · rintro ⟨ws, rfl⟩; cases hk
    · rintro ⟨ws, e⟩; cases e
  · rw [if_neg hk]
    exact ⟨rfl, fun _ => Iff.rfl, fun _ => sameTopologyAll_refl cs⟩

/-- Such a handler shifts the metrics of every stage with a repartitioning at its root, however many tasks it has and whatever its nodes
record: the worker puts the repartitioning its consumers ask for on top of the replaced one, and what is shown for the node below the root is
what the tasks recorded for the replaced root. -/
theorem C44_instrumented_shifts {ph : Bool} {N : Nat} {tc : TaskCount} {h : Row → Nat} {m : Nat} {y : Plan Row} {I : Info Row}
    (hl : Legal ph N y I) {addr : Path → Nat} (hdist : Distinct addr (.node (.hashRepart h m none) tc [y])) (g : Op Row) (r : Option (Op Row))
    {query num : Nat} {store : Store V} {recorded : Nat → Path → List (Metric V)} {q w : Nat → Plan Row}
    (hq : ∀ i < N, instrument g r (decoded (share ⟨i, N⟩ (.node (.hashRepart h m none) tc [y]))) = .ok (q i))
    (hw : ∀ i < N, (Head.repartition h m).insert (q i) = .ok (w i))
    (hstore : ∀ i < N, ∃ r, report (w i) ⟨i, N⟩ (recorded i) = .ok r ∧ store ⟨query, num, i⟩ = some r) :
    (∀ i < N, ∃ z, NodeAt (w i) [0] z ∧ z.kind = .op g r) ∧
    ∃ rest, stageRewrite .aggregated addr query num N store (.node (.hashRepart h m none) tc [y])
      = .ok (([], (List.range N).flatMap fun i => recorded i []) :: ([0], (List.range N).flatMap fun i => recorded i [0]) :: rest) := by
  have hqs : ∀ i < N, q i = .node (.op g r) tc [decoded (share ⟨i, N⟩ y)] := by
    intro i hi
    have := hq i hi
    rw [share_node (by rintro _ _ ⟨⟩)] at this
    simp only [Kind.isNet, Bool.false_eq_true, if_false, shareAll_eq, decoded, instrument] at this
    have e := (Except.ok.inj this).symm
    have hcc : childCtx (Row := Row) (.hashRepart h m none) ⟨i, N⟩ 0 = some ⟨i, N⟩ := rfl
    simpa [Kind.isHead, decodedAll, hcc] using e
  have hws : ∀ i < N, w i = .node (.hashRepart h m none) tc [.node (.op g r) tc [decoded (share ⟨i, N⟩ y)]] := by
    intro i hi
    have := hw i hi
    rw [hqs i hi] at this
    have e := (Except.ok.inj this).symm
    rw [strip_noop rfl] at e
    exact e
  refine ⟨fun i hi => ⟨_, by rw [hws i hi]; exact .child rfl rfl .root, rfl⟩, ?_⟩
  have hvs : ∀ i, ∃ l, i < N → visit y ⟨i, N⟩ = .ok ([] :: l) ∧ visit (decoded (share ⟨i, N⟩ y)) ⟨i, N⟩ = .ok ([] :: l)
      ∧ ([] :: l).Nodup ∧ ∀ x, x ∈ [] :: l → x ∈ nodes y := by
    intro i
    by_cases hi : i < N
    · have hok := legal_ok hl ⟨i, N⟩ hi
      obtain ⟨l, h1, h2, h3, h4⟩ := visit_spec y ⟨i, N⟩ hok.1 hok.2
      have hhead : ∃ l', l = [] :: l' := by
        exact visit_root h1
      obtain ⟨l', rfl⟩ := hhead
      exact ⟨l', fun _ => ⟨h1, by rw [visit_topology _ _ (sameTopology_decoded _), h2], h3, fun x hx => ((h4 x).mp hx).mem⟩⟩
    · exact ⟨[], fun h => absurd h hi⟩
  choose vs hvs using hvs
  have hvc : ∀ i < N, visit (.node (.hashRepart h m none) tc [y]) ⟨i, N⟩ = .ok ([] :: [0] :: (vs i).map (0 :: ·)) := by
    intro i hi
    rw [visit_other (by rintro _ _ ⟨⟩)]
    simp only [Kind.isNet, Bool.false_eq_true, if_false, visitAll]
    rw [(hvs i hi).1]
    simp [bind, Except.bind]
  have hrep : ∀ i < N, report (w i) ⟨i, N⟩ (recorded i)
      = .ok (recorded i [] :: recorded i [0] :: (([] :: vs i).map fun x => recorded i (0 :: 0 :: x))) := by
    intro i hi
    rw [hws i hi]
    unfold report
    rw [visit_other (by rintro _ _ ⟨⟩)]
    simp only [Kind.isNet, Bool.false_eq_true, if_false, visitAll]
    rw [visit_other (by rintro _ _ ⟨⟩)]
    simp only [Kind.isNet, Bool.false_eq_true, if_false, visitAll]
    rw [(hvs i hi).2.1]
    simp [bind, Except.bind]
  have hnd : ∀ i < N, ([] :: [0] :: (vs i).map (0 :: ·) : List Path).Nodup := by
    intro i hi
    have h3 := (hvs i hi).2.2.1
    have : ([] :: [0] :: (vs i).map (0 :: ·) : List Path) = [] :: ([] :: vs i).map (0 :: ·) := rfl
    rw [this, List.nodup_cons]
    exact ⟨by simp, h3.map (fun a b e => (List.cons.inj e).2)⟩
  have key := stageRewrite_spec .aggregated addr query num N store (.node (.hashRepart h m none) tc [y])
    (fun i x => (recorded i [] :: recorded i [0] :: (([] :: vs i).map fun x => recorded i (0 :: 0 :: x))).getD
      (([] :: [0] :: (vs i).map (0 :: ·) : List Path).idxOf x) [])
    (fun i => [] :: [0] :: (vs i).map (0 :: ·)) hdist (by
      intro i hi
      refine ⟨hvc i hi, hnd i hi, fun x hx => ?_,
        recorded i [] :: recorded i [0] :: (([] :: vs i).map fun x => recorded i (0 :: 0 :: x)), ?_, fun j x hj => ?_⟩
      · unfold nodes
        simp only [Kind.isNet, Bool.false_eq_true, if_false, nodesAll, List.append_nil]
        have hx : x = [] ∨ x ∈ ([] :: vs i).map (0 :: ·) := by simpa using hx
        rcases hx with rfl | hx
        · simp
        · obtain ⟨z, hz, rfl⟩ := List.mem_map.mp hx
          exact List.mem_cons_of_mem _ (List.mem_map.mpr ⟨z, (hvs i hi).2.2.2 z hz, rfl⟩)
      · obtain ⟨r', g1, g2⟩ := hstore i hi
        rw [hrep i hi] at g1
        cases g1
        exact g2
      · have hlt := (List.getElem?_eq_some_iff.mp hj).1
        have hx := (List.getElem?_eq_some_iff.mp hj).2
        have : ([] :: [0] :: (vs i).map (0 :: ·) : List Path).idxOf x = j := by
          rw [← hx]; exact List.Nodup.idxOf_getElem (hnd i hi) j hlt
        simp only [this]
        have hlen : j < (recorded i [] :: recorded i [0] :: (([] :: vs i).map fun x => recorded i (0 :: 0 :: x))).length := by
          simp only [List.length_cons, List.length_map] at hlt ⊢
          omega
        rw [List.getElem?_eq_getElem hlen, List.getD_eq_getElem?_getD, List.getElem?_eq_getElem hlen]
        rfl)
  have hnodes : ∃ rest, nodes (.node (.hashRepart h m none) tc [y]) = [] :: [0] :: rest := by
    obtain ⟨k, tc, cs⟩ := y
    unfold nodes
    simp only [Kind.isNet, Bool.false_eq_true, if_false, nodesAll, List.append_nil]
    unfold nodes
    exact ⟨_, rfl⟩
  obtain ⟨rest, hrest⟩ := hnodes
  rw [hrest, List.map_cons, List.map_cons] at key
  refine ⟨_, key.trans (congrArg Except.ok (congrArg₂ List.cons (Prod.ext rfl ?_) (congrArg₂ List.cons (Prod.ext rfl ?_) rfl)))⟩
  · apply List.flatMap_congr
    intro i hi
    simp only [List.mem_cons, true_or, if_true, List.idxOf_cons_self, List.getD_cons_zero]
    exact List.map_id _
  · apply List.flatMap_congr
    intro i hi
    have e : ([] :: [0] :: (vs i).map (0 :: ·) : List Path).idxOf [0] = 1 := by
      rw [List.idxOf_cons_ne _ (by simp), List.idxOf_cons_self]
    simp only [List.mem_cons, true_or, or_true, if_true, e]
    exact List.map_id _

/-! ### Shared nodes -/

/-- **C44 is false** for a plan in which one node object occurs twice, whatever leaf it is and whatever its two copies on the worker (which
decodes two) record: everything is shown on its first occurrence, nothing on the second. -/
theorem C44_shared_object_false (rows : List (List Row)) (tc tc' : TaskCount) (f : Format) (query num : Nat)
    (recorded : Path → List (Metric V)) {r : List (List (Metric V))}
    (hr : report (.node .union tc [.node (.leaf rows) tc' [], .node (.leaf rows) tc' []]) ⟨0, 1⟩ recorded = .ok r) :
    stageRewrite f (fun x => if x = [] then 0 else 1) query num 1 (Store.insert (fun _ => none) ⟨query, num, 0⟩ r)
      (.node .union tc [.node (.leaf rows) tc' [], .node (.leaf rows) tc' []]) =
    .ok [([], (recorded []).map (shownFor f 0)), ([0], (recorded [0]).map (shownFor f 0) ++ (recorded [1]).map (shownFor f 0)), ([1], [])] := by
  have v : visit (.node .union tc [.node (.leaf rows) tc' [], .node (.leaf rows) tc' []]) ⟨0, 1⟩ = .ok [[], [0], [1]] := by
    simp [visit, visitAll, Kind.isNet, bind, Except.bind]
  have n : nodes (.node .union tc [.node (.leaf rows) tc' [], .node (.leaf rows) tc' []]) = [[], [0], [1]] := by
    simp [nodes, nodesAll, Kind.isNet]
  unfold report at hr
  rw [v] at hr
  cases hr
  unfold stageRewrite
  rw [n]
  have hf : ∀ l : List (Metric V), f.rewrite 0 l = l.map (shownFor f 0) := by
    intro l
    cases f with
    | aggregated => exact (List.map_id l).symm
    | perTask => rfl
  simp [show List.range 1 = [0] from rfl, enterTasks, enterTask, Store.insert, v, bind, Except.bind, wrapNodes, hf]

/-! ### Examples -/

/-- A handler that replaces filters and projections and keeps everything else, given a plan with a repartitioning at its root. -/
def Demo.swapOps (g : Op Row) : RewriteHandler Row
  | .node k tc cs => .ok (.node (match k with | .op _ r => .op g r | k => k) tc cs)

theorem Demo.swapOps_keeps (g : Op Row) : KeepsTopology (Demo.swapOps g) := by
  rintro ⟨k, tc, cs⟩ q h
  have e := (Except.ok.inj h).symm
  subst e
  cases k <;> (unfold SameTopology; exact ⟨⟨rfl, by simp, fun _ => sameTopologyAll_refl cs⟩, Iff.rfl⟩)

/-- Whatever the tasks of a stage with a repartitioning at its root record, with two handlers on every worker. -/
example {ph : Bool} {N : Nat} {tc : TaskCount} {h : Row → Nat} {m : Nat} {y : Plan Row} {I : Info Row} (hl : Legal ph N y I)
    (g g' : Op Row) (recorded : Nat → Path → List (Metric Nat)) : ∃ store : Store Nat,
    stageRewrite .perTask Encodable.encode 7 2 N store (.node (.hashRepart h m none) tc [y]) = .ok
      ((nodes (.node (.hashRepart h m none) tc [y])).map fun x => (x, expected .perTask N (.node (.hashRepart h m none) tc [y]) recorded x)) := by
  classical
  have hl' : Legal ph N (strip (.node (.hashRepart h m none) tc [y])) I := hl
  have hfix : (Head.repartition h m).insert (.node (.hashRepart h m none) tc [y]) = .ok (.node (.hashRepart h m none) tc [y]) := rfl
  have hr : ∀ i, ∃ r, i < N → report (.node (.hashRepart h m none) tc [decoded (share ⟨i, N⟩ y)]) ⟨i, N⟩ (recorded i) = .ok r := by
    intro i
    by_cases hi : i < N
    · have hok := legal_ok hl ⟨i, N⟩ hi
      obtain ⟨l, _, h2, _⟩ := visit_spec y ⟨i, N⟩ hok.1 hok.2
      refine ⟨([] :: l.map (0 :: ·)).map (recorded i), fun _ => ?_⟩
      unfold report
      rw [visit_other (by rintro _ _ ⟨⟩)]
      simp only [Kind.isNet, Bool.false_eq_true, if_false, visitAll]
      rw [visit_topology _ _ (sameTopology_decoded _), h2]
      simp [bind, Except.bind]
    · exact ⟨[], fun h => absurd h hi⟩
  choose r hr using hr
  refine ⟨fun k => some (r k.task), C44_rewritten_stage hl' (fun _ => rfl) hfix (fun x y _ _ h => Encodable.encode_injective h)
    (handlers := fun _ => { custom := [Demo.swapOps g], builtin := [Demo.swapOps g'] }) ?_ ?_ .perTask⟩
  · intro i _ h hh
    simp only [List.cons_append, List.nil_append, List.mem_cons, List.not_mem_nil, or_false] at hh
    rcases hh with rfl | rfl <;> exact Demo.swapOps_keeps _
  · intro i hi
    refine ⟨.node (.hashRepart h m none) tc [decoded (share ⟨i, N⟩ y)], _, r i, ?_, rfl, hr i hi, rfl⟩
    rw [share_node (by rintro _ _ ⟨⟩)]
    have hcc : childCtx (Row := Row) (.hashRepart h m none) ⟨i, N⟩ 0 = some ⟨i, N⟩ := rfl
    simp [Kind.isNet, shareAll_eq, decoded, decodedAll, hcc, handleRewrite, HandlerChain.tryFold, Demo.swapOps, bind, Except.bind]
    rfl

end DD.Metrics
