/-
**C76** The feeds of a plan: every node with a feed is declared to each task that runs it and fed with that task's units, and over
all tasks the provider is asked for each of its feeds once.
-/
import Verif.Lemmas.FeedPlan
import Verif.Props.WorkUnit

namespace DD.Tree.Rec

open DD.Tree

variable {Row : Type}

/-! ### Planned stages meet the conditions -/

theorem unionsOk_plain {T : Nat} {k : Kind Row} {tc : TaskCount} {cs : List (Plan Row)} (hk : ∀ ws m, k ≠ .ciu ws m)
    (hcs : k.isNet = false → ∀ (i : Nat) c, cs[i]? = some c → UnionsOk T c) : UnionsOk T (.node k tc cs) := by
  intro t x hx
  rw [stageNodes, List.mem_cons] at hx
  rcases hx with e | hx
  · cases e
    exact fun ws m h => absurd h (hk ws m)
  · cases hn : k.isNet with
    | true => rw [hn] at hx; simp at hx
    | false =>
      rw [hn, if_neg (by simp), mem_stageNodesAll] at hx
      obtain ⟨i, c, hc, hx⟩ := hx
      rw [childCount_same hn hk] at hx
      exact hcs hn i c hc t x hx

theorem legal_unions {ph : Bool} {T : Nat} {p : Plan Row} {I : Info Row} (h : Legal ph T p I) : UnionsOk T p := by
  have one : ∀ {c : Plan Row} {P : Plan Row → Prop}, P c → ∀ (i : Nat) c', [c][i]? = some c' → P c' := by
    intro c P h i c' hc
    cases i with
    | zero => cases hc; exact h
    | succ i => cases hc
  have two : ∀ {b c : Plan Row} {P : Plan Row → Prop}, P b → P c → ∀ (i : Nat) c', [b, c][i]? = some c' → P c' := by
    intro b c P h h' i c' hc
    match i with
    | 0 => cases hc; exact h
    | 1 => cases hc; exact h'
    | i + 2 => cases hc
  have zip : ∀ {α : Type} {cs : List (Plan Row)} {as : List α} (_ : cs.length = as.length) {i : Nat} {c},
      cs[i]? = some c → ∃ a, as[i]? = some a := by
    intro α cs as hl i c hc
    have := (List.getElem?_eq_some_iff.mp hc).1
    exact ⟨as[i]'(hl ▸ this), List.getElem?_eq_getElem _⟩
  induction h with
  | leaf _ => exact unionsOk_plain (by rintro _ _ ⟨⟩) (fun _ i c hc => by cases hc)
  | distLeaf => exact unionsOk_plain (by rintro _ _ ⟨⟩) (fun _ i c hc => by cases hc)
  | opKeyed _ _ _ _ h1 h2 _ ih =>
    refine unionsOk_plain (by rintro _ _ ⟨⟩) (fun _ i c hc => ?_)
    obtain ⟨a, ha⟩ := zip h1 hc
    obtain ⟨b, hb⟩ := zip h2 hc
    exact ih i c a b hc ha hb
  | opSingle _ _ _ h1 _ ih =>
    refine unionsOk_plain (by rintro _ _ ⟨⟩) (fun _ i c hc => ?_)
    obtain ⟨a, ha⟩ := zip h1 hc
    exact ih i c a hc ha
  | union _ h1 _ ih =>
    refine unionsOk_plain (by rintro _ _ ⟨⟩) (fun _ i c hc => ?_)
    obtain ⟨a, ha⟩ := zip h1 hc
    exact ih i c a hc ha
  | joinSafe _ _ _ _ _ ih1 ih2 | joinSingle _ _ _ _ ih1 ih2 | joinPart _ _ _ _ _ ih1 ih2 =>
    exact unionsOk_plain (by rintro _ _ ⟨⟩) (fun _ => two ih1 ih2)
  | opLocal _ _ _ _ ih | hashRepart _ _ _ ih | otherRepart _ _ _ ih | coalesce _ ih | spm _ ih | broadcast _ ih =>
    exact unionsOk_plain (by rintro _ _ ⟨⟩) (fun _ => one ih)
  | fetch hk _ _ ih =>
    rcases hk with rfl | ⟨le, rfl⟩ <;> exact unionsOk_plain (by rintro _ _ ⟨⟩) (fun _ => one ih)
  | @ciu tc ws m cs T E k Ps _ hl hm hr ho _ ih =>
    intro t x hx
    rw [stageNodes, List.mem_cons] at hx
    rcases hx with e | hx
    · cases e
      intro ws' m' e
      cases e
      exact ⟨hm, ho, k, hr⟩
    · rw [if_neg (by simp [Kind.isNet]), mem_stageNodesAll] at hx
      obtain ⟨i, c, hc, hx⟩ := hx
      obtain ⟨P, hP⟩ := zip hl hc
      have : childCount (Row := Row) (.ciu ws m) T i = k i := unionCount_eq hr (List.getElem?_eq_some_iff.mp hc).1
      rw [this] at hx
      exact ih i c P hc hP t x hx
  | shuffle | netCoalesce | netBroadcast => exact unionsOk_plain (by rintro _ _ ⟨⟩) (fun h => by cases h)
  | forget _ ih => exact ih
  | coarsen _ _ ih => exact ih
  | trivial _ ih => exact ih
  | repFlip _ ih => exact ih

theorem unions_of_strip {T : Nat} {p : Plan Row} (hh : p.kind.isHead = true → p.children.length = 1)
    (h : UnionsOk T (strip p)) : UnionsOk T p := by
  rcases strip_cases p with e | ⟨hk, y, rest, e, e'⟩
  · rwa [e] at h
  · rw [e'] at h
    have hl := hh hk
    cases p with
    | node k tc cs =>
      simp only [Plan.children] at e hl
      simp only [Plan.kind] at hk
      subst e
      have : rest = [] := by simpa using hl
      subst this
      refine unionsOk_plain (by rintro _ _ rfl; cases hk) (fun _ i c hc => ?_)
      match i with
      | 0 => cases hc; exact h
      | i + 1 => cases hc

/-! ### **C76** -/

/-- **C76** (declared) For every stage plan that can be executed by `N` tasks and each of these tasks: the task is sent its part of
the plan, in which nodes with feeds are kept, and a declaration of each node with a feed that it runs, with the node's partition
count. -/
theorem C76_every_feed_is_declared {ph : Bool} {N : Nat} {p : Plan Row} {I : Info Row} (h : Legal ph N (strip p) I)
    (hh : p.kind.isHead = true → p.children.length = 1) {i : Nat} (hi : i < N) {fuel : Nat} (hf : depth p ≤ fuel)
    {reg : List (Getter Row)} {rt : Plan Row → M (Plan Row)} (hfd : FeedsOk reg rt ⟨i, N⟩ p) :
    ∃ ds, taskPlan reg rt fuel p ⟨i, N⟩ = .ok (shareFed (fun x => (getFeed reg x).isSome) ⟨i, N⟩ p, ds)
      ∧ ds = (preorderIn ⟨i, N⟩ p).filterMap (fun v => (getFeed reg v.2).map fun id => (id, v.2.parts))
      ∧ ∀ id P, (id, P) ∈ ds ↔ ∃ ctx x, CtxAt ⟨i, N⟩ p ctx x ∧ getFeed reg x = some id ∧ P = x.parts := by
  have hok := ok_of_strip hh (legal_ok h ⟨i, N⟩ hi)
  have h1 := C26_ctx (declareNode reg rt) fuel p ⟨i, N⟩ []
  rw [downIn_declare reg rt fuel p ⟨i, N⟩ [] hf hok.1 hok.2 hfd] at h1
  refine ⟨_, ?_, rfl, ?_⟩
  · unfold taskPlan
    cases hd : downCtx (declareNode reg rt) fuel p ⟨i, N⟩ [] with
    | error e => rw [hd] at h1; cases h1
    | ok r =>
      rw [hd] at h1
      obtain ⟨r1, r2, r3⟩ := r
      have h2 := Except.ok.inj h1
      simp only [Prod.mk.injEq, List.nil_append] at h2
      obtain ⟨rfl, rfl⟩ := h2
      rfl
  · intro id P
    simp only [List.mem_filterMap, Option.map_eq_some_iff, Prod.mk.injEq, Prod.exists]
    constructor
    · rintro ⟨ctx, x, hx, id', hid, rfl, rfl⟩
      exact ⟨ctx, x, (preorderIn_iff p _ _ _ hok.1).mp hx, hid, rfl⟩
    · rintro ⟨ctx, x, hx, hid, rfl⟩
      exact ⟨ctx, x, (preorderIn_iff p _ _ _ hok.1).mpr hx, id, hid, rfl, rfl⟩

/-- **C76** (opened) For the same task the coordinator opens the feeds of the same nodes, each in the context the task runs the node
in. -/
theorem C76_every_feed_is_opened {ph : Bool} {N : Nat} {p : Plan Row} {I : Info Row} (h : Legal ph N (strip p) I)
    (hh : p.kind.isHead = true → p.children.length = 1) {i : Nat} (hi : i < N) (reg : List (Getter Row)) :
    ∃ os, openFeeds reg p ⟨i, N⟩ = .ok os
      ∧ os.Perm ((preorderIn ⟨i, N⟩ p).filterMap fun v => (getFeed reg v.2).map fun id => ⟨id, v.2.parts, v.1⟩)
      ∧ ∀ o, o ∈ os ↔ ∃ ctx x, CtxAt ⟨i, N⟩ p ctx x ∧ getFeed reg x = some o.id ∧ o.partitions = x.parts ∧ o.ctx = ctx := by
  have hok := ok_of_strip hh (legal_ok h ⟨i, N⟩ hi)
  obtain ⟨l, h1, h2, h3⟩ := C26_apply p ⟨i, N⟩ hok.1
  have hopen : openNode reg = fun v : TaskCtx × Plan Row => (getFeed reg v.2).map fun id => (⟨id, v.2.parts, v.1⟩ : Opened) := by
    funext v
    unfold openNode
    cases getFeed reg v.2 <;> rfl
  refine ⟨l.filterMap (openNode reg), ?_, ?_, ?_⟩
  · unfold openFeeds
    rw [h1]
    rfl
  · rw [hopen]
    exact h2.filterMap _
  · intro o
    rw [hopen]
    simp only [List.mem_filterMap, Option.map_eq_some_iff, Prod.exists]
    constructor
    · rintro ⟨ctx, x, hx, id, hid, rfl⟩
      exact ⟨ctx, x, (h3 _ _).mp hx, hid, rfl, rfl⟩
    · rintro ⟨ctx, x, hx, hid, e1, e2⟩
      refine ⟨ctx, x, (h3 _ _).mpr hx, _, hid, ?_⟩
      cases o
      simp_all

theorem range_mul_perm (P : Nat) : ∀ T : Nat,
    ((List.range T).flatMap fun i => (List.range P).map fun q => P * i + q) = List.range (P * T)
  | 0 => by simp
  | T + 1 => by
    rw [List.range_succ, List.flatMap_append, range_mul_perm P T, Nat.mul_succ, List.range_add]
    simp

/-- **C76** (once) Over all `N` tasks of the stage, the provider of every node with a feed is called as it was promised: if the node
is run by `t` tasks, for each of its partitions in each of these tasks once, with `t` as fan-out. -/
theorem C76_every_feed_is_called_once {ph : Bool} {N : Nat} {p : Plan Row} {I : Info Row} (h : Legal ph N (strip p) I)
    (hh : p.kind.isHead = true → p.children.length = 1) (reg : List (Getter Row)) :
    ∃ opened : Nat → List Opened, (∀ i < N, openFeeds reg p ⟨i, N⟩ = .ok (opened i))
      ∧ ((List.range N).flatMap fun i => (opened i).flatMap Opened.calls).Perm
        ((stageNodes N p).flatMap fun (t, x) => match getFeed reg x with
          | none => []
          | some id => promisedCalls id x.parts t) := by
  refine ⟨fun i => if hi : i < N then (C76_every_feed_is_opened h hh hi reg).choose else [], ?_, ?_⟩
  · intro i hi
    simp only [dif_pos hi]
    exact (C76_every_feed_is_opened h hh hi reg).choose_spec.1
  · -- what one visited node is called with
    let f : TaskCtx × Plan Row → List Call := fun v => match getFeed reg v.2 with
      | none => []
      | some id => (⟨id, v.2.parts, v.1⟩ : Opened).calls
    have h1 : ((List.range N).flatMap fun i => (if hi : i < N then (C76_every_feed_is_opened h hh hi reg).choose else []).flatMap
        Opened.calls).Perm ((List.range N).flatMap fun i => (preorderIn ⟨i, N⟩ p).flatMap f) := by
      refine flatMap_congr_perm fun i hi => ?_
      have hi := List.mem_range.mp hi
      rw [dif_pos hi]
      refine ((C76_every_feed_is_opened h hh hi reg).choose_spec.2.1.flatMap_right _).trans (.of_eq ?_)
      induction preorderIn ⟨i, N⟩ p with
      | nil => rfl
      | cons v l ih =>
        rw [List.filterMap_cons, List.flatMap_cons, ← ih]
        cases hg : getFeed reg v.2 with
        | none => simp [f, hg]
        | some id => simp [f, hg, List.flatMap_cons]
    have h2 : ((List.range N).flatMap fun i => (preorderIn ⟨i, N⟩ p).flatMap f)
        = ((contexts N).flatMap fun ctx => preorderIn ctx p).flatMap f := by
      rw [List.flatMap_assoc, contexts, List.flatMap_map]
    rw [h2] at h1
    refine h1.trans (((stage_covered p N (unions_of_strip hh (legal_unions h))).flatMap_right f).trans (.of_eq ?_))
    unfold stageRuns
    rw [List.flatMap_assoc]
    refine List.flatMap_congr fun v _ => ?_
    obtain ⟨t, x⟩ := v
    cases hg : getFeed reg x with
    | none => simp [f, hg]
    | some id =>
      simp only [f, hg, contexts, List.flatMap_map, promisedCalls, Opened.calls, Opened.fanOut, Opened.feedIdx]
      rw [← range_mul_perm x.parts t, List.map_flatMap]
      refine List.flatMap_congr fun i _ => ?_
      rw [List.map_map]
      rfl

/-- **C76** (read) In a task whose feeds have distinct ids, under every schedule of the coordinator, the connection and the worker,
what partition `q` of a node has received is, in order, an initial part of what the provider returned for that node, that task and
that partition; and its whole, if the coordinator drained its feeds, the connection was not lost, and the node has seen the end of
its feed. A receiver exists for each of these partitions. -/
theorem C76_nodes_read_their_feed {U : Type} {ph : Bool} {N : Nat} {p : Plan Row} {I : Info Row} (h : Legal ph N (strip p) I)
    (hh : p.kind.isHead = true → p.children.length = 1) {i : Nat} (hi : i < N) {fuel : Nat} (hf : depth p ≤ fuel)
    {reg : List (Getter Row)} {rt : Plan Row → M (Plan Row)} (hfd : FeedsOk reg rt ⟨i, N⟩ p)
    (hid : ((preorderIn ⟨i, N⟩ p).filterMap fun v => getFeed reg v.2).Nodup)
    (provider : Nat → Nat → Nat → List (Except Err U)) :
    ∃ ds os sh, taskPlan reg rt fuel p ⟨i, N⟩ = .ok (sh, ds) ∧ openFeeds reg p ⟨i, N⟩ = .ok os
      ∧ (∀ k, WU.declaredBy (os.map (Opened.node provider)) k = true ↔ WU.Declared ds k)
      ∧ ∀ ctx x id, CtxAt ⟨i, N⟩ p ctx x → getFeed reg x = some id → ∀ q < x.parts,
        (WU.Registry.feed (WU.Registry.ofDecls ds) (id, q)).2 = .ok ()
        ∧ ∀ steps, let s := WU.run (os.map (Opened.node provider)) steps
          (s.got (id, q)).map Except.ok <+: provider id ctx.count (x.parts * ctx.index + q)
          ∧ (s.phase = .finished → ¬ WU.CutShort (os.map (Opened.node provider)) steps → s.sawEnd (id, q) = true →
            (s.got (id, q)).map Except.ok = provider id ctx.count (x.parts * ctx.index + q)) := by
  obtain ⟨ds, d1, _, d3⟩ := C76_every_feed_is_declared h hh hi hf hfd
  obtain ⟨os, o1, o2, o3⟩ := C76_every_feed_is_opened h hh hi reg
  have hdist : WU.DistinctIds (os.map (Opened.node provider)) := by
    unfold WU.DistinctIds
    rw [List.map_map]
    have e : ((preorderIn ⟨i, N⟩ p).filterMap fun v => getFeed reg v.2)
        = ((preorderIn ⟨i, N⟩ p).filterMap fun v => (getFeed reg v.2).map fun id => (⟨id, v.2.parts, v.1⟩ : Opened)).map (·.id) := by
      rw [List.map_filterMap]
      congr 1
      funext v
      cases getFeed reg v.2 <;> rfl
    rw [e] at hid
    exact (o2.map (·.id)).nodup_iff.mpr hid
  refine ⟨ds, os, _, d1, o1, ?_, ?_⟩
  · intro k
    simp only [WU.declaredBy, List.any_map, List.any_eq_true, Function.comp, Bool.and_eq_true, beq_iff_eq, decide_eq_true_eq,
      WU.Declared, Prod.exists]
    constructor
    · rintro ⟨o, ho, h1, h2⟩
      obtain ⟨ctx, x, hx, hg, hp, _⟩ := (o3 o).mp ho
      exact ⟨o.id, o.partitions, (d3 _ _).mpr ⟨ctx, x, hx, hg, hp⟩, h1, h2⟩
    · rintro ⟨id, P, hd, h1, h2⟩
      obtain ⟨ctx, x, hx, hg, hp⟩ := (d3 _ _).mp hd
      exact ⟨⟨id, P, ctx⟩, (o3 _).mpr ⟨ctx, x, hx, hg, hp, rfl⟩, h1, h2⟩
  · intro ctx x id hx hg q hq
    have hm : (⟨id, x.parts, ctx⟩ : Opened).node provider ∈ os.map (Opened.node provider) :=
      List.mem_map_of_mem ((o3 _).mpr ⟨ctx, x, hx, hg, rfl, rfl⟩)
    refine ⟨?_, ?_⟩
    · have := (WU.C39_take_once ds [] (id, q)).1 ⟨_, (d3 id x.parts).mpr ⟨ctx, x, hx, hg, rfl⟩, rfl, hq⟩ (by simp)
      exact this
    · intro steps
      exact ⟨(WU.C38_units_in_order _ hdist steps).1 _ hm q hq,
        fun h1 h2 h3 => WU.C38_end_of_feed_is_complete_partial _ hdist steps h1 h2 _ hm q hq h3⟩

/-- **C76** What the three theorems say of the input `p` of a boundary with `N` producer tasks. -/
structure Feeds (reg : List (Getter Row)) (N : Nat) (p : Plan Row) : Prop where
  /-- each task is told of the feeds it runs -/
  declared : ∀ i < N, ∀ rt, FeedsOk reg rt ⟨i, N⟩ p → ∀ fuel, depth p ≤ fuel →
    ∃ sh ds, taskPlan reg rt fuel p ⟨i, N⟩ = .ok (sh, ds)
      ∧ ∀ id P, (id, P) ∈ ds ↔ ∃ ctx x, CtxAt ⟨i, N⟩ p ctx x ∧ getFeed reg x = some id ∧ P = x.parts
  /-- and the provider is called for each feed once -/
  calls : ∃ opened : Nat → List Opened, (∀ i < N, openFeeds reg p ⟨i, N⟩ = .ok (opened i))
    ∧ ((List.range N).flatMap fun i => (opened i).flatMap Opened.calls).Perm
      ((stageNodes N p).flatMap fun (t, x) => match getFeed reg x with
        | none => []
        | some id => promisedCalls id x.parts t)

/-- **C76** (planned) In every planned plan the input of every boundary is fed like that. -/
theorem C76_planned_stages_are_fed {env : Env Row} (he : EnvOk env) {p p' : Plan Row} {J : SInfo Row}
    (h : Src env .pre p J) (hrep : J.rep = false) (hroot : RootOk env p J) (hp : plan env p = .ok (some p'))
    {t : Nat} {x : Plan Row} (hx : At 1 p' t x) (hn : x.kind.isNet = true) (reg : List (Getter Row)) :
    ∃ c, x.children = [c] ∧ Feeds reg x.kind.tasks c := by
  obtain ⟨d, hl, _⟩ := plan_src he h hrep hroot hp
  obtain ⟨c, I', h1, h2, h3, _⟩ := legal_sub hl hx hn
  refine ⟨c, h1, fun i hi rt hfd fuel hf => ?_, C76_every_feed_is_called_once h3 h2 reg⟩
  obtain ⟨ds, d1, _, d3⟩ := C76_every_feed_is_declared h3 h2 hi hf hfd
  exact ⟨_, ds, d1, d3⟩

/-- **C76** (rows) If the `P*T` feeds a provider returns for `T` tasks hold together the units of the whole leaf, a leaf that makes
rows of units may be run by `T` tasks like any leaf that was divided between tasks: everything proved of plans with such leaves
(**C08** in particular) holds of it. -/
theorem C76_fed_leaves_may_be_distributed {U : Type} {ph : Bool} (rows : U → List Row) (whole : List (List Row)) (feed : Nat → List U)
    {P T : Nat} (hP : 0 < P) (h1 : T = 1 → whole.length = P) (tc : TaskCount)
    (hc : (((List.range (P * T)).flatMap feed).flatMap rows).Perm whole.flatten) :
    Legal ph T (.node (.distLeaf whole (fedRows rows feed P T)) tc []) ⟨P, none, false, .perm⟩
    ∧ ∀ i < T, ∀ q < P, (run (.node (.distLeaf whole (fedRows rows feed P T)) tc [])).exec true ⟨i, T⟩ q
      = (feed (P * i + q)).flatMap rows := by
  refine ⟨.distLeaf hP (by simp [fedRows]) ?_ h1 ?_, ?_⟩
  · intro v hv
    simp only [fedRows, List.mem_map] at hv
    obtain ⟨i, _, rfl⟩ := hv
    simp
  · refine .trans (.of_eq ?_) hc
    rw [List.flatMap_assoc, ← range_mul_perm P T, List.flatMap_assoc]
    unfold fedRows
    rw [← List.flatMap_def, ← List.flatMap_id, List.flatMap_assoc]
    refine List.flatMap_congr fun i _ => ?_
    rw [List.flatMap_map, List.flatMap_map]
    rfl
  · intro i hi q hq
    rw [run_node]
    change (if true || T != 1 then ((fedRows rows feed P T).getD i []).getD q [] else whole.getD q []) = _
    simp [fedRows, hi, hq]

/-- The first registered getter that knows a node decides which feed it has; a getter registered later only decides for nodes no
earlier one knows. -/
theorem C76_first_getter (reg : List (Getter Row)) (g : Getter Row) (p : Plan Row) :
    getFeed (addGetter reg g) p = (getFeed reg p).or (g p) := by
  unfold addGetter
  induction reg with
  | nil => simp only [List.nil_append, getFeed]; cases g p <;> rfl
  | cons f fs ih =>
    simp only [List.cons_append, getFeed]
    cases f p with
    | none => exact ih
    | some id => rfl

/-! ### The theorems apply -/

/-- A registry that knows the first branch of `Demo.branches` as feed 7, and leaves of two partitions as feed 8. -/
def Demo.reg : List (Getter Nat) :=
  [fun p => match p.kind with | .distLeaf _ _ => some 7 | _ => none,
   fun p => match p.kind with | .leaf [_, _] => some 8 | _ => none]

/-- The second task of `Demo.branches` is told of feed 7, with one partition, and keeps that leaf. -/
example : taskPlan Demo.reg .ok 3 Demo.branches ⟨1, 3⟩
    = .ok (fresh (.ciu [] [[(0, ⟨0, 2⟩)], [(0, ⟨1, 2⟩)], [(1, ⟨0, 1⟩)]])
      [fresh (.distLeaf [[1, 2]] [[[1]], [[2]]]) [], fresh (.leaf [[], []]) []], [(7, 1)]) := by
  rfl

theorem Demo.branches_feeds (ctx : TaskCtx) : FeedsOk Demo.reg .ok ctx Demo.branches := by
  intro ctx' x id _ hg
  refine ⟨rfl, fun ws m hk => ?_⟩
  have : getFeed Demo.reg x = none := by simp [getFeed, Demo.reg, hk]
  rw [this] at hg
  cases hg

example : ∃ ds, taskPlan Demo.reg .ok 3 Demo.branches ⟨1, 3⟩ = .ok (shareFed (fun x => (getFeed Demo.reg x).isSome) ⟨1, 3⟩
    Demo.branches, ds) ∧ ds = [(7, 1)] := by
  obtain ⟨ds, h1, h2, _⟩ := C76_every_feed_is_declared (p := Demo.branches) Demo.branches_legal (by intro h; cases h)
    (i := 1) (by decide) (fuel := 3) (by decide) (Demo.branches_feeds _)
  exact ⟨ds, h1, h2⟩

/-- Feed 7 is called twice, for tasks 0 and 1 of the branch, feed 8 for its two partitions in one task. -/
example : ((stageNodes 3 Demo.branches).flatMap fun (t, x) => match getFeed Demo.reg x with
    | none => []
    | some id => promisedCalls id x.parts t) = [⟨7, 2, 0⟩, ⟨7, 2, 1⟩, ⟨8, 1, 0⟩, ⟨8, 1, 1⟩] := by decide

example : ∃ opened : Nat → List Opened, (∀ i < 3, openFeeds Demo.reg Demo.branches ⟨i, 3⟩ = .ok (opened i))
    ∧ ((List.range 3).flatMap fun i => (opened i).flatMap Opened.calls).Perm
      [⟨7, 2, 0⟩, ⟨7, 2, 1⟩, ⟨8, 1, 0⟩, ⟨8, 1, 1⟩] :=
  C76_every_feed_is_called_once (p := Demo.branches) Demo.branches_legal (by intro h; cases h) Demo.reg

/-- Three files in two feeds of two tasks, of which each unit is read as one row. -/
example : Legal true 2 (.node (.distLeaf [[1, 2, 3]] (fedRows (fun u : Nat => [u]) (fun g => if g = 0 then [1, 3] else [2]) 1 2))
    (.desired 2) []) ⟨1, none, false, .perm⟩ :=
  (C76_fed_leaves_may_be_distributed (fun u : Nat => [u]) [[1, 2, 3]] (fun g => if g = 0 then [1, 3] else [2]) (by decide)
    (by decide) _ (by decide)).1

example : ((preorderIn ⟨1, 3⟩ Demo.branches).filterMap fun v => getFeed Demo.reg v.2).Nodup := by decide

/-! ### Where feeds are lost -/

/-- **Finding.** A leaf that was scaled up into one variant per task is not looked into: if the variants have feeds, but the leaf
that holds them has none, the task is sent its variant and no declaration, no feed is opened for it, and its request for the feed
fails. -/
theorem C76_feeds_of_variants_false {Row : Type} (reg : List (Getter Row)) (rt : Plan Row → M (Plan Row)) (tc : TaskCount)
    (o : List (List Row)) (vs : List (List (List Row))) (ctx : TaskCtx) {v : List (List Row)} (hv : vs[ctx.index]? = some v)
    (hno : getFeed reg (.node (.distLeaf o vs) tc []) = none) {id : Nat} (hyes : getFeed reg (.node (.leaf v) tc []) = some id) :
    ∃ sent, taskPlan reg rt 1 (.node (.distLeaf o vs) tc []) ctx = .ok (sent, []) ∧ getFeed reg sent = some id
      ∧ openFeeds reg (.node (.distLeaf o vs) tc []) ctx = .ok []
      ∧ ∀ q, (WU.Registry.feed (WU.Registry.ofDecls []) (id, q)).2 = .error (.exec "missing feed") := by
  refine ⟨_, ?_, hyes, ?_, fun q => rfl⟩
  · simp [taskPlan, downCtx, transformDown, mapUntilStop, pushCtxs, ctxEnter, declareNode, hno, specialiseNode, hv, bind, Except.bind,
      Plan.children, Plan.kind, Kind.isNet, withChildren]
  · simp [openFeeds, applyCtx, applyAll, openNode, hno, bind, Except.bind, Kind.isNet]

/-- Two leaves that are clones of each other, and so have the same feed. -/
def Demo.clones : Plan Nat := fresh .union [fresh (.leaf [[]]) [], fresh (.leaf [[]]) []]

def Demo.cloneReg : List (Getter Nat) := [fun p => match p.kind with | .leaf _ => some 7 | _ => none]

/-- **Finding.** Nothing notices two nodes that share a feed: the feed is declared twice without an error, its provider is called
twice for the same partition, and the second node that asks for its units is refused. -/
theorem C76_shared_feed_false :
    taskPlan Demo.cloneReg .ok 2 Demo.clones ⟨0, 1⟩ = .ok (Demo.clones, [(7, 1), (7, 1)])
    ∧ openFeeds Demo.cloneReg Demo.clones ⟨0, 1⟩ = .ok [⟨7, 1, ⟨0, 1⟩⟩, ⟨7, 1, ⟨0, 1⟩⟩]
    ∧ ([⟨7, 1, ⟨0, 1⟩⟩, ⟨7, 1, ⟨0, 1⟩⟩] : List Opened).flatMap Opened.calls = [⟨7, 1, 0⟩, ⟨7, 1, 0⟩]
    ∧ (WU.Registry.feed (WU.Registry.ofDecls [(7, 1), (7, 1)]) (7, 0)).2 = .ok ()
    ∧ (WU.Registry.feed (WU.Registry.after (WU.Registry.ofDecls [(7, 1), (7, 1)]) [(7, 0)]) (7, 0)).2
      = .error (.exec "already consumed") :=
  ⟨rfl, by
    simp [openFeeds, applyCtx, applyAll, openNode, getFeed, Demo.cloneReg, Demo.clones, fresh, bind, Except.bind, Kind.isNet,
      Plan.kind]
    decide, by decide, rfl, rfl⟩

end DD.Tree.Rec
