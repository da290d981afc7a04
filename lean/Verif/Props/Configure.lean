import Verif.Lemmas.Configure
import Verif.Props.WorkerSession
/-
C81: configuring a session.
-/
namespace DD.Configure

open Headers Session

variable {fl : Session.Float} {X : Type}

/-! ### What one call does -/

theorem put_ext_ne (v : View fl X) {s s' : Slot} (h : s' ≠ s) (x : s.Val X) : (v.put s x).ext s' = v.ext s' :=
  Function.update_of_ne h _ _

theorem put_ext_self (v : View fl X) (s : Slot) (x : s.Val X) : (v.put s x).ext s = some x := Function.update_self _ _ _

theorem pushPrefix_ext (v : View fl X) {s : Slot} (h : s ≠ .prefixes) (p : Str) : (v.pushPrefix p).ext s = v.ext s :=
  put_ext_ne v h _

theorem setDist_ext (v : View fl X) {s : Slot} (h : s ≠ .prefixes) (d : Config fl) : (v.setDist d).ext s = v.ext s :=
  pushPrefix_ext _ h _

theorem ensure_ext (v : View fl X) {s : Slot} (h : s ≠ .prefixes) : v.ensure.ext s = v.ext s := by
  unfold View.ensure
  split
  · rfl
  · exact setDist_ext v h _

theorem fromHeaders_ext (v : View fl X) {s : Slot} (h : s ≠ .prefixes) (hs : HeaderMap) : (v.fromHeaders hs).1.ext s = v.ext s := by
  unfold View.fromHeaders
  dsimp only
  split
  · exact pushPrefix_ext v h _
  · split <;> exact pushPrefix_ext v h _

/-- What a call does to what is kept under a type. -/
def slotEffect (s : Slot) (old : Option (s.Val X)) (c : Call fl X) : Option (s.Val X) :=
  match s, old, c with
  | .codecs, old, .codec x => some (old.getD [] ++ [x])
  | .feeds, old, .feed x => some (old.getD [] ++ [x])
  | .workerResolver, _, .workerResolver x => some x
  | .channelResolver, _, .channelResolver x => some x
  | .localWorker, _, .localWorker x => some x
  | .headers, old, .headers h => if h.any (fun x => configPrefix.isPrefixOf x.1) then old else some h
  | .chain k, old, .handler k' x => if k' = k then some ((old.getD {}).register (.custom (.user x))) else old
  | .chain .desiredTaskCount, old, .planner => some ((old.getD {}).register (.builtin .fileTaskCount))
  | .chain .scaleUpLeaf, old, .planner => some ((old.getD {}).register (.builtin .fileScaleUp))
  | .chain .routeTasks, old, .planner =>
    some ((((old.getD {}).register (.builtin .coordinatorRouting)).register (.builtin .childUrlRouting)).register (.builtin .randomRouting))
  | _, old, _ => old

theorem call_ext (v : View fl X) {s : Slot} (h : s ≠ .prefixes) (c : Call fl X) : (v.call c).1.ext s = slotEffect s (v.ext s) c := by
  cases c with
  | options d => rw [View.call, setDist_ext v h]; cases s <;> rfl
  | extension p e => rw [View.call, pushPrefix_ext _ h]; cases s <;> rfl
  | fromHeaders hs => rw [View.call, fromHeaders_ext v h]; cases s <;> rfl
  | set x =>
    have : (v.call (.set x)).1.ext s = v.ext s := by simp only [View.call]; split <;> rfl
    rw [this]; cases s <;> rfl
  | sql k x =>
    have : (v.call (.sql k x)).1.ext s = v.ext s := by
      simp only [View.call]
      split
      · rfl
      · split <;> rfl
    rw [this]; cases s <;> rfl
  | codec x =>
    by_cases e : s = .codecs
    · subst e; exact put_ext_self _ _ _
    · rw [View.call, put_ext_ne v e]; cases s <;> first | rfl | exact absurd rfl e
  | feed x =>
    by_cases e : s = .feeds
    · subst e; exact put_ext_self _ _ _
    · rw [View.call, put_ext_ne v e]; cases s <;> first | rfl | exact absurd rfl e
  | workerResolver x =>
    by_cases e : s = .workerResolver
    · subst e; exact put_ext_self _ _ _
    · rw [View.call, put_ext_ne _ e, ensure_ext v h]; cases s <;> first | rfl | exact absurd rfl e
  | channelResolver x =>
    rw [View.call, ensure_ext _ h]
    by_cases e : s = .channelResolver
    · subst e; exact put_ext_self _ _ _
    · rw [put_ext_ne _ e]; cases s <;> first | rfl | exact absurd rfl e
  | localWorker x =>
    by_cases e : s = .localWorker
    · subst e; exact put_ext_self _ _ _
    · rw [View.call, put_ext_ne v e]; cases s <;> first | rfl | exact absurd rfl e
  | headers hd =>
    simp only [View.call, setPassthrough]
    by_cases e : s = .headers
    · subst e
      simp only [slotEffect]
      split <;> split <;> simp_all [put_ext_self]
    · have : slotEffect s (v.ext s) (Call.headers hd : Call fl X) = v.ext s := by
        cases s <;> first | rfl | exact absurd rfl e
      rw [this]
      split
      · exact put_ext_ne v e _
      · rfl
  | handler k x =>
    by_cases e : s = .chain k
    · subst e
      rw [View.call, put_ext_self]
      cases k <;> simp [slotEffect]
    · rw [View.call, put_ext_ne v e]; cases s <;> first | rfl | skip
      rename_i k'
      have : ¬ k = k' := fun h => e (by rw [h])
      cases k' <;> simp [slotEffect, this]
  | planner =>
    simp only [View.call, View.extendBuiltin]
    cases s with
    | chain k =>
      cases k <;> simp [View.put, View.setOptions, slotEffect, Function.update_apply, ensure_ext]
    | prefixes => exact absurd rfl h
    | _ => simp [View.put, View.setOptions, slotEffect, Function.update_apply, ensure_ext]
  | scalarSubqueries b => rw [View.call]; cases s <;> try rfl

theorem replay_ext (l : List (Call fl X)) {s : Slot} (h : s ≠ .prefixes) : (replay l).ext s = l.foldl (slotEffect s) none := by
  induction l using List.reverseRecOn with
  | nil => rfl
  | append_singleton l c ih => rw [replay_snoc, call_ext _ h, ih, List.foldl_append]; rfl

theorem read_ext {evs : List (Ev fl X)} {i : Nat} {l : List (Call fl X)} (hl : (lineages evs)[i]? = some l) {s : Slot} (h : s ≠ .prefixes) :
    (World.run evs).get i s = l.foldl (slotEffect s) none := by
  rw [← replay_ext l h, ← (run_view evs).2.2 i l hl]
  rfl

/-! ### **C81** -/

theorem lineages_alone (l : List (Call fl X)) : lineages (l.map (Ev.call 0)) = [l] := by
  induction l using List.reverseRecOn with
  | nil => rfl
  | append_singleton l c ih => rw [List.map_append, List.map_singleton, lineages_snoc, ih]; rfl

/-- **C81** (copies) Whatever is done to the sessions of a process, each of them reads exactly what a single session reads on which
only the calls were made that were made on it, or on a session it is a copy of before the copy was made. So no call on a session
changes a copy of it, or the session it is a copy of. -/
theorem C81_copies_are_independent {evs : List (Ev fl X)} {i : Nat} {l : List (Call fl X)} (hl : (lineages evs)[i]? = some l) :
    (World.run evs).options i = (World.run (l.map (Ev.call 0))).options 0
      ∧ ∀ s, (World.run evs).get i s = (World.run (l.map (Ev.call 0))).get 0 s := by
  have h1 := (run_view evs).2.2 i l hl
  have h2 := (run_view (l.map (Ev.call 0))).2.2 0 l (by rw [lineages_alone]; rfl)
  have h := h1.trans h2.symm
  exact ⟨congrArg View.options h, fun s => congrFun (congrArg View.ext h) s⟩

/-- **C81** (copies) Every session there is has such calls. -/
theorem C81_every_session_has_calls (evs : List (Ev fl X)) : (World.run evs).sessions.length = (lineages evs).length :=
  (run_view evs).2.1

/-- **C81** (what adds up) A session has all the codecs and feeds it was given, in that order. -/
theorem C81_codecs_and_feeds_add_up {evs : List (Ev fl X)} {i : Nat} {l : List (Call fl X)} (hl : (lineages evs)[i]? = some l) :
    ((World.run evs).get i .codecs).getD [] = l.filterMap Call.codec?
      ∧ ((World.run evs).get i .feeds).getD [] = l.filterMap Call.feed? := by
  rw [read_ext hl (by decide), read_ext hl (by decide)]
  clear hl
  constructor
  · induction l using List.reverseRecOn with
    | nil => rfl
    | append_singleton l c ih =>
      rw [List.foldl_append, List.filterMap_append, ← ih]
      cases c <;> simp [slotEffect, Call.codec?]
  · induction l using List.reverseRecOn with
    | nil => rfl
    | append_singleton l c ih =>
      rw [List.foldl_append, List.filterMap_append, ← ih]
      cases c <;> simp [slotEffect, Call.feed?]

/-- **C81** (what adds up) A session asks the handlers of a kind it was given, in that order, and then the built-in ones. -/
theorem C81_handlers_add_up {evs : List (Ev fl X)} {i : Nat} {l : List (Call fl X)} (hl : (lineages evs)[i]? = some l) (k : HandlerKind) :
    (World.run evs).asked i k = l.filterMap (Call.handler? k) ++ l.flatMap (Call.builtins k) := by
  have key : ∀ l : List (Call fl X), ((l.foldl (slotEffect (.chain k)) none).getD {}).custom = l.filterMap (Call.handler? k)
      ∧ ((l.foldl (slotEffect (.chain k)) none).getD {}).builtin = l.flatMap (Call.builtins k) := by
    intro l
    induction l using List.reverseRecOn with
    | nil => exact ⟨rfl, rfl⟩
    | append_singleton l c ih =>
      rw [List.foldl_append, List.filterMap_append, List.flatMap_append, ← ih.1, ← ih.2]
      cases c with
      | handler k' x =>
        by_cases e : k' = k
        · subst e; cases k' <;> simp [slotEffect, Call.handler?, Call.builtins, HandlerChain.register]
        · cases k <;> simp [slotEffect, Call.handler?, Call.builtins, e]
      | planner => cases k <;> simp [slotEffect, Call.handler?, Call.builtins, HandlerChain.register]
      | _ => cases k <;> simp [slotEffect, Call.handler?, Call.builtins]
  unfold World.asked
  rw [read_ext hl (by simp)]
  obtain ⟨h1, h2⟩ := key l
  cases hc : l.foldl (slotEffect (.chain k)) none with
  | none => rw [hc] at h1 h2; rw [← h1, ← h2]; rfl
  | some c => rw [hc] at h1 h2; rw [← h1, ← h2]; rfl

theorem getLast?_snoc_filterMap {α β : Type} (f : α → Option β) (l : List α) (c : α) :
    ((l ++ [c]).filterMap f).getLast? = (f c).or (l.filterMap f).getLast? := by
  rw [List.filterMap_append]
  cases h : f c with
  | none => simp [List.filterMap_cons, h]
  | some x => simp [List.filterMap_cons, h]

/-- **C81** (what is replaced) A session has the last worker resolver, channel resolver and local worker it was given, and the last
headers without a reserved name. -/
theorem C81_last_given {evs : List (Ev fl X)} {i : Nat} {l : List (Call fl X)} (hl : (lineages evs)[i]? = some l) :
    (World.run evs).get i .workerResolver = (l.filterMap Call.workerResolver?).getLast?
      ∧ (World.run evs).get i .channelResolver = (l.filterMap Call.channelResolver?).getLast?
      ∧ (World.run evs).get i .localWorker = (l.filterMap Call.localWorker?).getLast?
      ∧ (World.run evs).get i .headers = (l.filterMap Call.headers?).getLast? := by
  rw [read_ext hl (by decide), read_ext hl (by decide), read_ext hl (by decide), read_ext hl (by decide)]
  clear hl
  refine ⟨?_, ?_, ?_, ?_⟩ <;>
  · induction l using List.reverseRecOn with
    | nil => rfl
    | append_singleton l c ih =>
      rw [List.foldl_append, getLast?_snoc_filterMap, ← ih]
      cases c <;> try rfl
      all_goals first
        | rfl
        | (simp only [List.foldl_cons, List.foldl_nil, slotEffect, Call.headers?]; split <;> rfl)

/-! ### Options -/

/-- What a call does to the distributed options. -/
def distEffect (old : Option (Config fl)) : Call fl X → Option (Config fl)
  | .options d => some d
  | .fromHeaders hs => match old with
    | some d => some (applyHeaders d hs).1
    | none => match applyHeaders (Config.default fl) hs with
      | (d, .ok ()) => some d
      | (_, .error _) => none
  | .set s => old.map s.assign
  | .sql k x => match old with
    | none => none
    | some d => match (distExt fl).set d k x with
      | .ok d' => some d'
      | .error _ => some d
  | .workerResolver _ | .channelResolver _ | .planner => some (old.getD (Config.default fl))
  | _ => old

theorem ensure_dist (v : View fl X) : v.ensure.options.dist = some (v.options.dist.getD (Config.default fl)) := by
  unfold View.ensure
  split <;> rename_i h
  · rw [h]; rfl
  · rw [h]; rfl

theorem call_dist (v : View fl X) (c : Call fl X) : (v.call c).1.options.dist = distEffect v.options.dist c := by
  cases c with
  | fromHeaders hs =>
    simp only [View.call, View.fromHeaders, distEffect]
    have e : (v.pushPrefix distPrefix).options = v.options := rfl
    rw [e]
    cases hd : v.options.dist with
    | some d => rfl
    | none =>
      dsimp only
      cases applyHeaders (Config.default fl) hs with
      | mk d r =>
        cases r with
        | ok u => rfl
        | error e => exact hd
  | set s =>
    simp only [View.call, distEffect]
    cases hd : v.options.dist with
    | none => exact hd
    | some d => rfl
  | sql k x =>
    simp only [View.call, distEffect]
    cases hd : v.options.dist with
    | none => exact hd
    | some d =>
      dsimp only
      cases (distExt fl).set d k x with
      | ok d' => rfl
      | error e => exact hd
  | workerResolver x => exact ensure_dist v
  | channelResolver x => exact ensure_dist (v.put .channelResolver x)
  | headers hd =>
    simp only [View.call, distEffect]
    split <;> rfl
  | planner => exact ensure_dist v
  | _ => rfl

theorem assign_eq (s : Setter fl) (d : Config fl) : s.assign d = Function.update d s.field s.value := by
  cases s with
  | compression c => rcases c with _ | _ | _ <;> rfl
  | _ => rfl

theorem sql_other {d d' : Config fl} {k x : Str} (h : (distExt fl).set d k x = .ok d') {f : Field} (hk : k ≠ f.key) : d' f = d f := by
  simp only [distExt] at h
  cases ho : Field.ofKey k with
  | none => rw [ho] at h; cases h
  | some f' =>
    rw [ho] at h
    dsimp only at h
    have hne : f ≠ f' := fun e => hk (by rw [e]; exact (key_of_ofKey ho).symm)
    cases hp : parse fl f'.kind x with
    | none => rw [hp] at h; cases h
    | some y =>
      rw [hp] at h
      cases h
      exact Function.update_of_ne hne _ _

/-- A call that is not about an option leaves it as it is. -/
theorem distEffect_other {d : Config fl} {f : Field} {c : Call fl X} (hc : ¬ c.about f) :
    (distEffect (some d) c).map (fun d => d f) = some (d f) := by
  cases c with
  | options d' => exact absurd True.intro hc
  | fromHeaders hs => exact absurd True.intro hc
  | set s =>
    simp only [distEffect, Option.map_some, assign_eq]
    rw [Function.update_of_ne (fun e => hc e.symm)]
  | sql k x =>
    simp only [distEffect]
    cases h : (distExt fl).set d k x with
    | ok d' => exact congrArg some (sql_other h hc)
    | error e => rfl
  | _ => rfl

theorem option_valid {w : World fl X} {i : Nat} {f : Field} {x : f.kind.Val fl} (h : w.option i f = some x) : i < w.sessions.length := by
  apply Classical.byContradiction
  intro hi
  unfold World.option World.options at h
  rw [List.getElem?_eq_none (Nat.le_of_not_lt hi)] at h
  cases h

theorem option_view (w : World fl X) (i : Nat) (f : Field) : w.option i f = (view w i).options.dist.map fun d => d f := rfl

theorem option_step {w : World fl X} (hw : Inv w) {i : Nat} {f : Field} {x : f.kind.Val fl} (h : w.option i f = some x) (ev : Ev fl X)
    (hev : ∀ c, ev = .call i c → ¬ c.about f) : Inv (w.step ev) ∧ (w.step ev).option i f = some x := by
  have hi := option_valid h
  cases ev with
  | call j c =>
    by_cases hj : j < w.sessions.length
    · obtain ⟨hs, -⟩ := call_sim hw hj c
      refine ⟨hs.inv, ?_⟩
      by_cases e : i = j
      · subst e
        rw [option_view, World.step, hs.self, call_dist]
        rw [option_view] at h
        cases hd : (view w i).options.dist with
        | none => rw [hd] at h; cases h
        | some d =>
          rw [hd] at h
          rw [distEffect_other (hev c rfl)]
          exact h
      · rw [option_view, World.step, hs.other i e]
        exact h
    · rw [World.step, call_invalid (Nat.le_of_not_lt hj)]
      exact ⟨hw, h⟩
  | clone j =>
    refine ⟨inv_clone hw j, ?_⟩
    rw [option_view, World.step, view_clone hi]
    exact h

theorem option_after {f : Field} {i : Nat} {x : f.kind.Val fl} (after : List (Ev fl X)) : ∀ (w : World fl X), Inv w →
    w.option i f = some x → (∀ c, Ev.call i c ∈ after → ¬ c.about f) → (after.foldl World.step w).option i f = some x := by
  induction after with
  | nil => intro w _ h _; exact h
  | cons ev after ih =>
    intro w hw h hl
    obtain ⟨h1, h2⟩ := option_step hw h ev (fun c e => hl c (e ▸ List.mem_cons_self))
    exact ih _ h1 h2 (fun c hc => hl c (List.mem_cons_of_mem _ hc))

/-- **C81** (options) What a setter that succeeds sets is what the session has from then on, until a call about the same option is
made on the same session: no call about another setting, and no call on another session, changes it. -/
theorem C81_setting_kept (before after : List (Ev fl X)) (i : Nat) (s : Setter fl)
    (hok : ((World.run before).call i (.set s)).2 = .ok ()) (hlater : ∀ c, Ev.call i c ∈ after → ¬ c.about s.field) :
    (World.run (before ++ .call i (.set s) :: after)).option i s.field = some s.value := by
  have hw := (run_view before).1
  have hrun : World.run (before ++ .call i (.set s) :: after) = after.foldl World.step (((World.run before).call i (.set s)).1) := by
    simp [World.run, List.foldl_append, World.step]
  rw [hrun]
  have hi : i < (World.run before).sessions.length := by
    apply Classical.byContradiction
    intro hi
    have ho : (World.run before).options i = {} := by
      unfold World.options
      rw [List.getElem?_eq_none (Nat.le_of_not_lt hi)]
    simp only [World.call, ho] at hok
    cases hok
  obtain ⟨hs, hr⟩ := call_sim hw hi (.set s)
  refine option_after after _ hs.inv ?_ hlater
  rw [option_view, hs.self, call_dist]
  rw [hr] at hok
  simp only [View.call] at hok
  cases hd : (view (World.run before) i).options.dist with
  | none => rw [hd] at hok; cases hok
  | some d =>
    simp only [distEffect, Option.map_some, assign_eq]
    rw [Function.update_self]

/-- **C81** (options) A setter leaves all other options as they are. -/
theorem C81_other_options_kept (before : List (Ev fl X)) (i : Nat) (s : Setter fl) (f : Field) (hf : f ≠ s.field) :
    (World.run (before ++ [.call i (.set s)])).option i f = (World.run before).option i f := by
  have hw := (run_view before).1
  rw [run_snoc]
  by_cases hi : i < (World.run before).sessions.length
  · obtain ⟨hs, -⟩ := call_sim hw hi (.set s)
    rw [option_view, option_view, World.step, hs.self, call_dist]
    cases hd : (view (World.run before) i).options.dist with
    | none => rfl
    | some d => exact distEffect_other (fun e => hf e.symm)
  · rw [World.step, call_invalid (Nat.le_of_not_lt hi)]

/-- **C81** (options) In the beginning, and for options never mentioned, there are the documented defaults: after a call that
brings in the options and calls that are not about them. -/
theorem C81_defaults (evs : List (Ev fl X)) {i : Nat} {l : List (Call fl X)} (hl : (lineages evs)[i]? = some l) (f : Field)
    (hb : ∃ c ∈ l, c.brings = true) (hn : ∀ c ∈ l, ¬ c.about f) : (World.run evs).option i f = some (Config.default fl f) := by
  rw [option_view, (run_view evs).2.2 i l hl]
  clear hl
  have key : ∀ l : List (Call fl X), (∀ c ∈ l, ¬ c.about f) →
      ((replay l).options.dist = none ∧ ∀ c ∈ l, c.brings = false)
        ∨ (replay l).options.dist.map (fun d => d f) = some (Config.default fl f) := by
    intro l
    induction l using List.reverseRecOn with
    | nil => intro _; exact .inl ⟨rfl, fun c hc => by cases hc⟩
    | append_singleton l c ih =>
      intro hn
      have hc := hn c (by simp)
      rw [replay_snoc, call_dist]
      rcases ih (fun c hc => hn c (List.mem_append_left _ hc)) with ⟨h0, h1⟩ | h
      · rw [h0]
        cases c with
        | options d => exact absurd True.intro hc
        | fromHeaders hs => exact absurd True.intro hc
        | workerResolver x => exact .inr rfl
        | channelResolver x => exact .inr rfl
        | planner => exact .inr rfl
        | _ =>
          refine .inl ⟨rfl, fun c' hc' => ?_⟩
          rcases List.mem_append.mp hc' with hc' | hc'
          · exact h1 c' hc'
          · cases List.mem_singleton.mp hc'; rfl
      · cases hd : (replay l).options.dist with
        | none => rw [hd] at h; cases h
        | some d =>
          rw [hd] at h
          exact .inr ((distEffect_other hc).trans h)
  rcases key l hn with ⟨-, h⟩ | h
  · obtain ⟨c, hc, hb⟩ := hb
    rw [h c hc] at hb; cases hb
  · exact h

/-- **C81** (when setters work) After a call that brings in the distributed options, every setter succeeds. -/
theorem C81_setters_succeed {evs : List (Ev fl X)} {i : Nat} {l : List (Call fl X)} (hl : (lineages evs)[i]? = some l)
    (hb : ∃ c ∈ l, c.brings = true) (s : Setter fl) : ((World.run evs).call i (.set s)).2 = .ok () := by
  have key : ∀ l : List (Call fl X), (∃ c ∈ l, c.brings = true) → (replay l).options.dist.isSome = true := by
    intro l
    induction l using List.reverseRecOn with
    | nil => rintro ⟨c, hc, _⟩; cases hc
    | append_singleton l c ih =>
      rintro ⟨c', hc', hb⟩
      rw [replay_snoc, call_dist]
      rcases List.mem_append.mp hc' with hc' | hc'
      · have := ih ⟨c', hc', hb⟩
        cases hd : (replay l).options.dist with
        | none => rw [hd] at this; cases this
        | some d =>
          cases c with
          | sql k x =>
            simp only [distEffect]
            cases (distExt fl).set d k x <;> rfl
          | _ => rfl
      · cases List.mem_singleton.mp hc'
        cases c <;> first | rfl | cases hb
  have h := key l hb
  rw [← (run_view evs).2.2 i l hl] at h
  simp only [World.call]
  cases hd : ((World.run evs).options i).dist with
  | none => rw [show (view (World.run evs) i).options.dist = none from hd] at h; cases h
  | some d => rfl

/-- **C81** (when setters work) Before any call that brings them in, every setter fails with a planning error and changes nothing. -/
theorem C81_setters_fail {evs : List (Ev fl X)} {i : Nat} {l : List (Call fl X)} (hl : (lineages evs)[i]? = some l)
    (hb : ∀ c ∈ l, c.brings = false ∧ c.isFromHeaders = false) (s : Setter fl) :
    (∃ m, ((World.run evs).call i (.set s)).2 = .error (.plan m)) ∧ ((World.run evs).call i (.set s)).1 = World.run evs := by
  have key : ∀ l : List (Call fl X), (∀ c ∈ l, c.brings = false ∧ c.isFromHeaders = false) → (replay l).options.dist = none := by
    intro l
    induction l using List.reverseRecOn with
    | nil => intro _; rfl
    | append_singleton l c ih =>
      intro hb
      rw [replay_snoc, call_dist, ih (fun c hc => hb c (List.mem_append_left _ hc))]
      have h := hb c (by simp)
      cases c <;> first | rfl | exact Bool.noConfusion h.1 | exact Bool.noConfusion h.2
  have h := key l hb
  rw [← (run_view evs).2.2 i l hl] at h
  have h : ((World.run evs).options i).dist = none := h
  simp only [World.call, h]
  exact ⟨⟨_, rfl⟩, True.intro⟩

/-- **C81** (errors) A call that fails changes nothing, in any state, except reading options from headers. -/
theorem C81_failures_change_nothing (w : World fl X) (i : Nat) (c : Call fl X) (e : Err) (h : (w.call i c).2 = .error e)
    (hc : c.isFromHeaders = false) : (w.call i c).1 = w := by
  cases c with
  | fromHeaders hs => cases hc
  | set s =>
    simp only [World.call] at h ⊢
    cases hd : (w.options i).dist with
    | none => rfl
    | some d => rw [hd] at h; cases h
  | sql k x =>
    simp only [World.call] at h ⊢
    cases hd : (w.options i).dist with
    | none => rfl
    | some d =>
      rw [hd] at h
      dsimp only at h ⊢
      cases hs : (distExt fl).set d k x with
      | ok d' => rw [hs] at h; cases h
      | error e => rfl
  | headers hd =>
    simp only [World.call] at h ⊢
    cases hs : setPassthrough hd with
    | ok d' => rw [hs] at h; cases h
    | error e => rfl
  | _ => cases h

/-- **C81** (SQL) Where the options are there, a setter does what `SET distributed.<key> = '<value>'` does, with the option's name and
the value as it is printed. -/
theorem C81_setters_are_SET (hf : FloatLaw fl) (w : World fl X) (i : Nat) (s : Setter fl) (hok : (w.call i (.set s)).2 = .ok ()) :
    w.call i (.sql s.field.key (print fl s.field.kind s.value)) = w.call i (.set s) := by
  simp only [World.call] at hok ⊢
  cases hd : (w.options i).dist with
  | none => rw [hd] at hok; cases hok
  | some d =>
    have : (distExt fl).set d s.field.key (print fl s.field.kind s.value) = .ok (Function.update d s.field s.value) := by
      simp only [distExt, ofKey_key, parse_print hf]
    dsimp only
    simp only [assign_eq, this]

/-- **C81** (`with_*`) A chain of `with_*` calls succeeds if all the `set_*` calls do, and then it is the same. -/
theorem C81_with_is_set (w : World fl X) (i : Nat) (cs : List (Call fl X)) (w' : World fl X) :
    w.chain i cs = .ok w' ↔ (cs.foldl (fun w c => (w.call i c).1) w = w'
      ∧ ∀ a c b, cs = a ++ c :: b → ((a.foldl (fun w c => (w.call i c).1) w).call i c).2 = .ok ()) := by
  induction cs generalizing w with
  | nil =>
    refine ⟨fun h => ⟨by cases h; rfl, fun a c b e => by cases a <;> cases e⟩, fun h => by rw [← h.1]; rfl⟩
  | cons c cs ih =>
    simp only [World.chain]
    cases hc : w.call i c with
    | mk w1 r =>
      cases r with
      | ok u =>
        dsimp only
        rw [ih]
        have hw1 : (w.call i c).1 = w1 := by rw [hc]
        simp only [List.foldl_cons, hw1]
        refine and_congr_right fun _ => ⟨fun h a x b e => ?_, fun h a x b e => ?_⟩
        · cases a with
          | nil => cases e; simp only [List.foldl_nil, hc]
          | cons y a => cases e; simp only [List.foldl_cons, hw1]; exact h a x b rfl
        · have := h (c :: a) x b (by rw [e]; rfl)
          simpa only [List.foldl_cons, hw1] using this
      | error e =>
        refine ⟨fun h => (by cases h), fun h => ?_⟩
        have := h.2 [] c cs rfl
        simp only [List.foldl_nil, hc] at this
        cases this

theorem findSome?_repeat {α β : Type} (f : α → Option β) (b : List α) : ∀ n, 0 < n →
    ((List.replicate n b).flatten).findSome? f = b.findSome? f := by
  intro n
  induction n with
  | zero => intro h; cases h
  | succ n ih =>
    intro _
    rw [List.replicate_succ, List.flatten_cons, List.findSome?_append]
    cases n with
    | zero => simp
    | succ n =>
      rw [ih (Nat.succ_pos _)]
      cases b.findSome? f <;> rfl

/-- **C81** (planner) `with_distributed_planner` may be called more than once: the answer to every event is that of the user's
handlers or else of the built-in ones as if it had been called once. -/
theorem C81_planner_handlers_once {evs : List (Ev fl X)} {i : Nat} {l : List (Call fl X)} (hl : (lineages evs)[i]? = some l)
    (hp : .planner ∈ l) (k : HandlerKind) {β : Type} (answer : Handler X → Option β) :
    ((World.run evs).asked i k).findSome? answer
      = (l.filterMap (Call.handler? k) ++ Call.builtins k (.planner : Call fl X)).findSome? answer := by
  rw [C81_handlers_add_up hl, List.findSome?_append, List.findSome?_append]
  congr 1
  have : ∀ l : List (Call fl X), ∃ n, l.flatMap (Call.builtins k) = (List.replicate n (Call.builtins k (.planner : Call fl X))).flatten
      ∧ (.planner ∈ l → 0 < n) := by
    intro l
    induction l with
    | nil => exact ⟨0, rfl, fun h => by cases h⟩
    | cons c l ih =>
      obtain ⟨n, h1, h2⟩ := ih
      cases c with
      | planner => exact ⟨n + 1, by rw [List.flatMap_cons, h1, List.replicate_succ, List.flatten_cons], fun _ => Nat.succ_pos _⟩
      | _ =>
        refine ⟨n, by rw [List.flatMap_cons, h1]; rfl, fun h => h2 ?_⟩
        rcases List.mem_cons.mp h with h | h
        · cases h
        · exact h
  obtain ⟨n, h1, h2⟩ := this l
  rw [h1, findSome?_repeat _ _ n (h2 hp)]

/-! ### A concrete process -/

namespace Demo

def joins (w : World unitFloat Nat) (i : Nat) : Option Bool := w.option i .broadcastJoins

/-- A session gets a codec, a resolver and two handlers, and is copied. The copy is configured further: it gets a setting, the planner,
a codec and a handler; then the first one gets a codec and the opposite setting. -/
def history : List (Ev unitFloat Nat) :=
  [.call 0 (.codec 1), .call 0 (.workerResolver 2), .call 0 (.handler .routeTasks 3), .clone 0,
   .call 1 (.set (.broadcastJoins false)), .call 1 .planner, .call 1 (.codec 4), .call 1 (.handler .routeTasks 5),
   .call 0 (.codec 6), .call 0 (.set (.broadcastJoins true)), .call 0 (.workerResolver 7)]

example : ((World.run history).get 0 .codecs, (World.run history).get 1 .codecs) = (some [1, 6], some [1, 4]) := by decide +kernel
example : (joins (World.run history) 0, joins (World.run history) 1) = (some true, some false) := by
  decide +kernel
example : ((World.run history).get 0 .workerResolver, (World.run history).get 1 .workerResolver) = (some 7, some 2) := by
  decide +kernel
example : ((World.run history).asked 1 .routeTasks)
    = [.user 3, .user 5, .coordinatorRouting, .childUrlRouting, .randomRouting] := by decide +kernel
example : (World.run history).asked 0 .routeTasks = [.user 3] := by decide +kernel
example : ((World.run history).options 0).scalarSubqueries = true ∧ ((World.run history).options 1).scalarSubqueries = false := by
  decide +kernel

/-- Non-vacuity: the hypotheses of `C81_setting_kept`, `C81_copies_are_independent`, `C81_setters_succeed`,
`C81_planner_handlers_once` and `C81_defaults` hold for the copy. -/
example : (lineages history)[1]?.map List.length = some 7 ∧ (World.run history).option 1 .broadcastJoins = some false
    ∧ (World.run history).option 1 .partialReduce = some false := by
  refine ⟨rfl, ?_, ?_⟩
  · refine C81_setting_kept (history.take 4) (history.drop 5) 1 (.broadcastJoins false) (by decide +kernel) ?_
    intro c hc
    simp only [history, List.drop, List.mem_cons, List.not_mem_nil, or_false, Ev.call.injEq] at hc
    rcases hc with ⟨-, rfl⟩ | ⟨-, rfl⟩ | ⟨-, rfl⟩ | ⟨h, -⟩ | ⟨h, -⟩ | ⟨h, -⟩ <;> first | cases h | exact id
  · refine C81_defaults history (i := 1) (l := _) rfl .partialReduce ⟨.planner, ?_, rfl⟩ ?_
    · simp
    · intro c hc
      simp only [List.mem_cons, List.not_mem_nil, or_false, List.cons_append, List.nil_append] at hc
      rcases hc with rfl | rfl | rfl | rfl | rfl | rfl | rfl <;> first | exact id | (intro h; cases h)

/-- Non-vacuity for `C81_setters_fail`: a session with a codec but no resolver. -/
example : ∃ m, ((World.run [.call 0 (.codec 1)] : World unitFloat Nat).call 0 (.set (.maxTasksPerStage 3))).2 = .error (.plan m) :=
  (C81_setters_fail (evs := [.call 0 (.codec 1)]) (i := 0) rfl (fun c hc => by cases List.mem_singleton.mp hc; exact ⟨rfl, rfl⟩) _).1

end Demo

/-- **C81 fails for options read from headers.** A call that ends with an error because of the second header has changed the option
named in the first. -/
theorem C81_failed_headers_change_options_false : ∃ (evs : List (Ev unitFloat Nat)) (hs : HeaderMap) (e : Err),
    ((World.run evs).call 0 (.fromHeaders hs)).2 = .error e
      ∧ (World.run evs).option 0 .broadcastJoins = some true
      ∧ ((World.run evs).call 0 (.fromHeaders hs)).1.option 0 .broadcastJoins = some false :=
  ⟨[.call 0 (.workerResolver 1)],
   [("x-datafusion-distributed-config-distributed.broadcast_joins".toList, "false".toList),
    ("x-datafusion-distributed-config-distributed.shuffle_batch_size".toList, "many".toList)],
   .plan "Error parsing value", by decide +kernel, rfl,
   (show Demo.joins _ 0 = some false by decide +kernel)⟩

end DD.Configure
