import Verif.Spec.Configure
import Mathlib.Data.List.Induction
/-
Lemmas for C81: what a session reads is a function of the calls made on it and on the sessions it is a copy of.
-/
namespace DD.Configure

open Headers Session

variable {fl : Session.Float} {X : Type}

/-- What is read from a session. -/
structure View (fl : Session.Float) (X : Type) where
  options : Options fl
  ext : (s : Slot) → Option (s.Val X)

def view (w : World fl X) (i : Nat) : View fl X := ⟨w.options i, w.get i⟩

/-- All addresses are those of something. -/
structure Inv (w : World fl X) : Prop where
  opt : ∀ r ∈ w.sessions, r.options < w.optionHeap.length
  ext : ∀ r ∈ w.sessions, ∀ s a, r.ext s = some a → a < (w.heap s).length

theorem inv_init : Inv (World.init : World fl X) :=
  ⟨fun r hr => by cases List.mem_singleton.mp hr; exact Nat.zero_lt_one,
   fun r hr s a h => by cases List.mem_singleton.mp hr; cases h⟩

theorem mem_set {α : Type} {l : List α} {i : Nat} {x y : α} (h : y ∈ l.set i x) : y = x ∨ y ∈ l :=
  (List.mem_or_eq_of_mem_set h).symm

theorem inv_put {w : World fl X} (h : Inv w) (i : Nat) (s : Slot) (v : s.Val X) : Inv (w.put i s v) := by
  unfold World.put
  cases hr : w.sessions[i]? with
  | none => exact h
  | some r =>
    have hm := List.mem_of_getElem? hr
    refine ⟨fun r' hr' => ?_, fun r' hr' s' a ha => ?_⟩
    · rcases mem_set hr' with rfl | hr'
      · exact h.opt r hm
      · exact h.opt r' hr'
    · have key : ∀ a, a < (w.heap s').length → a < (Function.update w.heap s (w.heap s ++ [v]) s').length := by
        intro a ha
        by_cases e : s' = s
        · subst e; rw [Function.update_self, List.length_append]; omega
        · rw [Function.update_of_ne e]; exact ha
      rcases mem_set hr' with rfl | hr'
      · by_cases e : s' = s
        · subst e
          dsimp only at ha
          rw [Function.update_self] at ha
          cases ha
          dsimp only
          rw [Function.update_self, List.length_append, List.length_singleton]
          omega
        · dsimp only at ha
          rw [Function.update_of_ne e] at ha
          exact key a (h.ext r hm s' a ha)
      · exact key a (h.ext r' hr' s' a ha)

theorem inv_setOptions {w : World fl X} (h : Inv w) (i : Nat) (o : Options fl) : Inv (w.setOptions i o) := by
  unfold World.setOptions
  cases hr : w.sessions[i]? with
  | none => exact h
  | some r =>
    have hm := List.mem_of_getElem? hr
    dsimp only
    split
    · refine ⟨fun r' hr' => ?_, fun r' hr' s' a ha => ?_⟩
      · dsimp only at hr' ⊢
        rw [List.length_append, List.length_singleton]
        rcases mem_set hr' with rfl | hr'
        · exact Nat.lt_succ_self _
        · exact Nat.lt_succ_of_lt (h.opt r' hr')
      · rcases mem_set hr' with rfl | hr'
        · exact h.ext r hm s' a ha
        · exact h.ext r' hr' s' a ha
    · refine ⟨fun r' hr' => ?_, h.ext⟩
      dsimp only
      rw [List.length_set]
      exact h.opt r' hr'

theorem inv_clone {w : World fl X} (h : Inv w) (i : Nat) : Inv (w.clone i) := by
  unfold World.clone
  cases hr : w.sessions[i]? with
  | none => exact h
  | some r =>
    have hm := List.mem_of_getElem? hr
    refine ⟨fun r' hr' => ?_, fun r' hr' s' a ha => ?_⟩
    · rcases List.mem_append.mp hr' with hr' | hr'
      · exact h.opt r' hr'
      · cases List.mem_singleton.mp hr'; exact h.opt r hm
    · rcases List.mem_append.mp hr' with hr' | hr'
      · exact h.ext r' hr' s' a ha
      · cases List.mem_singleton.mp hr'; exact h.ext r hm s' a ha

/-! ### Number of sessions -/

theorem put_length (w : World fl X) (i : Nat) (s : Slot) (v : s.Val X) : (w.put i s v).sessions.length = w.sessions.length := by
  unfold World.put
  cases w.sessions[i]? with
  | none => rfl
  | some r => exact List.length_set ..

theorem setOptions_length (w : World fl X) (i : Nat) (o : Options fl) : (w.setOptions i o).sessions.length = w.sessions.length := by
  unfold World.setOptions
  cases w.sessions[i]? with
  | none => rfl
  | some r =>
    dsimp only
    split
    · exact List.length_set ..
    · rfl

/-! ### What the primitives do to what is read -/

theorem view_put_self {w : World fl X} {i : Nat} (hi : i < w.sessions.length) (s : Slot) (v : s.Val X) :
    view (w.put i s v) i = { view w i with ext := Function.update (view w i).ext s (some v) } := by
  unfold view World.put World.options
  rw [List.getElem?_eq_getElem hi]
  dsimp only
  rw [List.getElem?_set_self hi]
  congr 1
  funext s'
  unfold World.get
  dsimp only
  rw [List.getElem?_set_self hi, List.getElem?_eq_getElem hi]
  by_cases e : s' = s
  · subst e
    simp [Function.update_self]
  · simp [Function.update_of_ne e]

theorem view_put_other {w : World fl X} (hw : Inv w) {i j : Nat} (hij : j ≠ i) (s : Slot) (v : s.Val X) :
    view (w.put i s v) j = view w j := by
  unfold view World.put World.options
  cases hr : w.sessions[i]? with
  | none => rfl
  | some r =>
    dsimp only
    rw [List.getElem?_set_ne (Ne.symm hij)]
    congr 1
    funext s'
    unfold World.get
    dsimp only
    rw [List.getElem?_set_ne (Ne.symm hij)]
    cases hj : w.sessions[j]? with
    | none => rfl
    | some r' =>
      have hm := List.mem_of_getElem? hj
      cases ha : r'.ext s' with
      | none => simp [ha]
      | some a =>
        have := hw.ext r' hm s' a ha
        simp only [Option.bind_eq_bind, Option.bind_some, ha]
        by_cases e : s' = s
        · subst e; rw [Function.update_self, List.getElem?_append_left this]
        · rw [Function.update_of_ne e]

theorem view_setOptions_self {w : World fl X} (hw : Inv w) {i : Nat} (hi : i < w.sessions.length) (o : Options fl) :
    view (w.setOptions i o) i = { view w i with options := o } := by
  have hr := List.getElem?_eq_getElem hi
  have hm := List.getElem_mem hi
  unfold view World.setOptions
  rw [hr]
  dsimp only
  split
  · congr 1
    · unfold World.options
      dsimp only
      rw [List.getElem?_set_self hi]
      simp
    · funext s
      unfold World.get
      dsimp only
      rw [List.getElem?_set_self hi, hr]
      simp
  · congr 1
    unfold World.options
    dsimp only
    rw [hr]
    dsimp only
    rw [List.getElem?_set_self (hw.opt _ hm)]
    rfl

theorem view_setOptions_other {w : World fl X} (hw : Inv w) {i j : Nat} (hij : j ≠ i) (o : Options fl) :
    view (w.setOptions i o) j = view w j := by
  unfold view World.setOptions
  cases hr : w.sessions[i]? with
  | none => rfl
  | some r =>
    dsimp only
    split
    · congr 1
      · unfold World.options
        dsimp only
        rw [List.getElem?_set_ne (Ne.symm hij)]
        cases hj : w.sessions[j]? with
        | none => rfl
        | some r' =>
          dsimp only
          rw [List.getElem?_append_left (hw.opt r' (List.mem_of_getElem? hj))]
      · funext s
        unfold World.get
        dsimp only
        rw [List.getElem?_set_ne (Ne.symm hij)]
    · rename_i hsh
      congr 1
      unfold World.options
      dsimp only
      cases hj : w.sessions[j]? with
      | none => rfl
      | some r' =>
        dsimp only
        rw [List.getElem?_set_ne]
        intro e
        refine hsh (List.any_eq_true.mpr ⟨j, ?_, ?_⟩)
        · rw [List.mem_range]
          exact (List.getElem?_eq_some_iff.mp hj).1
        · rw [hj]
          simp [hij, e]

theorem view_clone {w : World fl X} {i j : Nat} (hj : j < w.sessions.length) : view (w.clone i) j = view w j := by
  unfold view World.clone
  cases w.sessions[i]? with
  | none => rfl
  | some r =>
    congr 1
    · unfold World.options
      dsimp only
      rw [List.getElem?_append_left hj]
    · funext s
      unfold World.get
      dsimp only
      rw [List.getElem?_append_left hj]

theorem view_clone_new {w : World fl X} {i : Nat} (hi : i < w.sessions.length) : view (w.clone i) w.sessions.length = view w i := by
  unfold view World.clone
  rw [List.getElem?_eq_getElem hi]
  dsimp only
  congr 1
  · unfold World.options
    dsimp only
    rw [List.getElem?_append_right (Nat.le_refl _), List.getElem?_eq_getElem hi]
    simp
  · funext s
    unfold World.get
    dsimp only
    rw [List.getElem?_append_right (Nat.le_refl _), List.getElem?_eq_getElem hi]
    simp

/-! ### Calls, on what is read -/

def View.put (v : View fl X) (s : Slot) (x : s.Val X) : View fl X := { v with ext := Function.update v.ext s (some x) }

def View.setOptions (v : View fl X) (o : Options fl) : View fl X := { v with options := o }

def View.pushPrefix (v : View fl X) (p : Str) : View fl X := v.put .prefixes ((v.ext .prefixes).getD [] ++ [p])

def View.setDist (v : View fl X) (d : Config fl) : View fl X :=
  (v.setOptions { v.options with dist := some d }).pushPrefix distPrefix

def View.ensure (v : View fl X) : View fl X :=
  match v.options.dist with
  | some _ => v
  | none => v.setDist (Config.default fl)

def View.fromHeaders (v : View fl X) (hs : HeaderMap) : View fl X × Except Err Unit :=
  let v := v.pushPrefix distPrefix
  match v.options.dist with
  | some d =>
    let r := applyHeaders d hs
    (v.setOptions { v.options with dist := some r.1 }, r.2)
  | none =>
    match applyHeaders (Config.default fl) hs with
    | (d, .ok ()) => (v.setOptions { v.options with dist := some d }, .ok ())
    | (_, .error e) => (v, .error e)

def View.extendBuiltin (v : View fl X) (k : HandlerKind) (hs : List (Handler X)) : View fl X :=
  v.put (.chain k) (hs.foldl (fun c h => c.register (.builtin h)) ((v.ext (.chain k)).getD {}))

def View.call (v : View fl X) : Call fl X → View fl X × Except Err Unit
  | .options d => (v.setDist d, .ok ())
  | .extension p e =>
    ((v.setOptions { v.options with others := v.options.others.filter (fun x => x.1 != p) ++ [(p, e)] }).pushPrefix p, .ok ())
  | .fromHeaders hs => v.fromHeaders hs
  | .set s => match v.options.dist with
    | none => (v, .error (.plan "DistributedConfig is not in ConfigOptions.extensions"))
    | some d => (v.setOptions { v.options with dist := some (s.assign d) }, .ok ())
  | .sql k x => match v.options.dist with
    | none => (v, .error (.plan "Could not find config namespace"))
    | some d => match (distExt fl).set d k x with
      | .ok d' => (v.setOptions { v.options with dist := some d' }, .ok ())
      | .error e => (v, .error e)
  | .codec x => (v.put .codecs ((v.ext .codecs).getD [] ++ [x]), .ok ())
  | .feed x => (v.put .feeds ((v.ext .feeds).getD [] ++ [x]), .ok ())
  | .workerResolver x => (v.ensure.put .workerResolver x, .ok ())
  | .channelResolver x => ((v.put .channelResolver x).ensure, .ok ())
  | .localWorker x => (v.put .localWorker x, .ok ())
  | .headers h => match setPassthrough h with
    | .ok h => (v.put .headers h, .ok ())
    | .error e => (v, .error e)
  | .handler k x => (v.put (.chain k) (((v.ext (.chain k)).getD {}).register (.custom (.user x))), .ok ())
  | .planner =>
    let v := v.ensure
    let v := v.setOptions { v.options with scalarSubqueries := false }
    let v := v.extendBuiltin .desiredTaskCount [.fileTaskCount]
    let v := v.extendBuiltin .scaleUpLeaf [.fileScaleUp]
    (v.extendBuiltin .routeTasks [.coordinatorRouting, .childUrlRouting, .randomRouting], .ok ())
  | .scalarSubqueries b => (v.setOptions { v.options with scalarSubqueries := b }, .ok ())

/-- `w'` comes from `w` by changes of session `i`, after which that session reads `v`. -/
structure Sim (w : World fl X) (i : Nat) (w' : World fl X) (v : View fl X) : Prop where
  inv : Inv w'
  valid : i < w'.sessions.length
  length : w'.sessions.length = w.sessions.length
  self : view w' i = v
  other : ∀ j, j ≠ i → view w' j = view w j

theorem Sim.options {w w' : World fl X} {i : Nat} {v : View fl X} (h : Sim w i w' v) : w'.options i = v.options :=
  congrArg View.options h.self

theorem Sim.get {w w' : World fl X} {i : Nat} {v : View fl X} (h : Sim w i w' v) (s : Slot) : w'.get i s = v.ext s :=
  congrFun (congrArg View.ext h.self) s

theorem Sim.put {w w' : World fl X} {i : Nat} {v : View fl X} (h : Sim w i w' v) (s : Slot) (x : s.Val X) :
    Sim w i (w'.put i s x) (v.put s x) :=
  ⟨inv_put h.inv i s x, by rw [put_length]; exact h.valid, (put_length ..).trans h.length,
   by rw [view_put_self h.valid, h.self]; rfl, fun j hj => (view_put_other h.inv hj s x).trans (h.other j hj)⟩

theorem Sim.setOptions {w w' : World fl X} {i : Nat} {v : View fl X} (h : Sim w i w' v) (o : Options fl) :
    Sim w i (w'.setOptions i o) (v.setOptions o) :=
  ⟨inv_setOptions h.inv i o, by rw [setOptions_length]; exact h.valid, (setOptions_length ..).trans h.length,
   by rw [view_setOptions_self h.inv h.valid, h.self]; rfl, fun j hj => (view_setOptions_other h.inv hj o).trans (h.other j hj)⟩

theorem Sim.pushPrefix {w w' : World fl X} {i : Nat} {v : View fl X} (h : Sim w i w' v) (p : Str) :
    Sim w i (w'.pushPrefix i p) (v.pushPrefix p) := by
  unfold World.pushPrefix View.pushPrefix
  rw [h.get]
  exact h.put _ _

theorem Sim.setDist {w w' : World fl X} {i : Nat} {v : View fl X} (h : Sim w i w' v) (d : Config fl) :
    Sim w i (w'.setDist i d) (v.setDist d) := by
  unfold World.setDist View.setDist
  rw [h.options]
  exact (h.setOptions _).pushPrefix _

theorem Sim.ensure {w w' : World fl X} {i : Nat} {v : View fl X} (h : Sim w i w' v) : Sim w i (w'.ensure i) v.ensure := by
  unfold World.ensure View.ensure
  rw [h.options]
  cases v.options.dist with
  | some _ => exact h
  | none => exact h.setDist _

theorem Sim.extendBuiltin {w w' : World fl X} {i : Nat} {v : View fl X} (h : Sim w i w' v) (k : HandlerKind) (hs : List (Handler X)) :
    Sim w i (w'.extendBuiltin i k hs) (v.extendBuiltin k hs) := by
  unfold World.extendBuiltin View.extendBuiltin
  rw [h.get]
  exact h.put _ _

theorem Sim.refl {w : World fl X} (hw : Inv w) {i : Nat} (hi : i < w.sessions.length) : Sim w i w (view w i) :=
  ⟨hw, hi, rfl, rfl, fun _ _ => rfl⟩

theorem call_sim {w : World fl X} (hw : Inv w) {i : Nat} (hi : i < w.sessions.length) (c : Call fl X) :
    Sim w i (w.call i c).1 ((view w i).call c).1 ∧ (w.call i c).2 = ((view w i).call c).2 := by
  have h := Sim.refl hw hi
  cases c with
  | options d => exact ⟨h.setDist d, rfl⟩
  | extension p e => exact ⟨(h.setOptions _).pushPrefix _, rfl⟩
  | fromHeaders hs =>
    simp only [World.call, View.call, World.fromHeaders, View.fromHeaders]
    have h1 := h.pushPrefix distPrefix
    rw [h1.options]
    cases hd : ((view w i).pushPrefix distPrefix).options.dist with
    | some d => exact ⟨h1.setOptions _, rfl⟩
    | none =>
      cases ha : applyHeaders (Config.default fl) hs with
      | mk d r =>
        cases r with
        | ok u => exact ⟨h1.setOptions _, rfl⟩
        | error e => exact ⟨h1, rfl⟩
  | set s =>
    simp only [World.call, View.call]
    rw [h.options]
    cases hd : (view w i).options.dist with
    | none => exact ⟨h, rfl⟩
    | some d => exact ⟨h.setOptions _, rfl⟩
  | sql k x =>
    simp only [World.call, View.call]
    rw [h.options]
    cases hd : (view w i).options.dist with
    | none => exact ⟨h, rfl⟩
    | some d =>
      dsimp only
      cases hs : (distExt fl).set d k x with
      | ok d' => exact ⟨h.setOptions _, rfl⟩
      | error e => exact ⟨h, rfl⟩
  | codec x => exact ⟨h.put _ _, rfl⟩
  | feed x => exact ⟨h.put _ _, rfl⟩
  | workerResolver x => exact ⟨h.ensure.put _ _, rfl⟩
  | channelResolver x => exact ⟨(h.put _ _).ensure, rfl⟩
  | localWorker x => exact ⟨h.put _ _, rfl⟩
  | headers hd =>
    simp only [World.call, View.call]
    cases setPassthrough hd with
    | ok hd => exact ⟨h.put _ _, rfl⟩
    | error e => exact ⟨h, rfl⟩
  | handler k x => exact ⟨h.put _ _, rfl⟩
  | planner =>
    refine ⟨?_, rfl⟩
    have h1 := h.ensure
    have h2 := h1.setOptions { (view w i).ensure.options with scalarSubqueries := false }
    have h3 := ((h2.extendBuiltin .desiredTaskCount [.fileTaskCount]).extendBuiltin .scaleUpLeaf [.fileScaleUp]).extendBuiltin
      .routeTasks [.coordinatorRouting, .childUrlRouting, .randomRouting]
    rw [← h1.options] at h3
    have e : (view w i).ensure.options = (w.ensure i).options i := h1.options.symm
    simp only [World.call, View.call]
    rw [e]
    exact h3
  | scalarSubqueries b => exact ⟨h.setOptions _, rfl⟩

/-! ### Histories -/

/-- What a new session reads. -/
def View.new : View fl X := ⟨{}, fun _ => none⟩

/-- What a session reads after some calls. -/
def replay (cs : List (Call fl X)) : View fl X := cs.foldl (fun v c => (v.call c).1) View.new

theorem replay_snoc (cs : List (Call fl X)) (c : Call fl X) : replay (cs ++ [c]) = ((replay cs).call c).1 := by
  simp [replay, List.foldl_append]

theorem lineages_snoc (evs : List (Ev fl X)) (ev : Ev fl X) : lineages (evs ++ [ev]) = (match ev with
    | .call i c => (lineages evs).modify i (· ++ [c])
    | .clone i => match (lineages evs)[i]? with
      | some l => lineages evs ++ [l]
      | none => lineages evs) := by
  unfold lineages
  rw [List.foldl_append, List.foldl_cons, List.foldl_nil]
  cases ev <;> rfl

theorem run_snoc (evs : List (Ev fl X)) (ev : Ev fl X) : World.run (evs ++ [ev]) = (World.run evs).step ev := by
  simp [World.run, List.foldl_append]

theorem call_invalid {w : World fl X} {i : Nat} (hi : w.sessions.length ≤ i) (c : Call fl X) : (w.call i c).1 = w := by
  have h0 : w.sessions[i]? = none := List.getElem?_eq_none hi
  have hp : ∀ s (x : s.Val X), w.put i s x = w := fun s x => by unfold World.put; rw [h0]
  have ho : ∀ o, w.setOptions i o = w := fun o => by unfold World.setOptions; rw [h0]
  have hpp : ∀ p, w.pushPrefix i p = w := fun p => hp _ _
  have hd : ∀ d, w.setDist i d = w := fun d => by unfold World.setDist; rw [ho, hpp]
  have he : w.ensure i = w := by unfold World.ensure; split <;> [rfl; exact hd _]
  have hb : ∀ k hs, w.extendBuiltin i k hs = w := fun k hs => hp _ _
  cases c <;> simp only [World.call, World.setOther, World.fromHeaders, World.pushCustom, hp, ho, hpp, hd, he, hb]
  · split
    · rfl
    · split <;> rfl
  · split <;> rfl
  · split
    · rfl
    · split <;> rfl
  · split <;> rfl

/-- Every session reads what the calls on it and on the sessions it is a copy of amount to. -/
theorem run_view (evs : List (Ev fl X)) : Inv (World.run evs) ∧ (World.run evs).sessions.length = (lineages evs).length
    ∧ ∀ i l, (lineages evs)[i]? = some l → view (World.run evs) i = replay l := by
  induction evs using List.reverseRecOn with
  | nil =>
    refine ⟨inv_init, rfl, fun i l h => ?_⟩
    cases i with
    | zero => cases h; rfl
    | succ i => cases h
  | append_singleton evs ev ih =>
    obtain ⟨hw, hl, hv⟩ := ih
    rw [run_snoc, lineages_snoc]
    cases ev with
    | call i c =>
      by_cases hi : i < (World.run evs).sessions.length
      · obtain ⟨hs, -⟩ := call_sim hw hi c
        refine ⟨hs.inv, ?_, fun j l hj => ?_⟩
        · rw [List.length_modify]; exact hs.length.trans hl
        · by_cases hji : j = i
          · subst hji
            rw [List.getElem?_modify_eq, Option.map_eq_map, Option.map_eq_some_iff] at hj
            obtain ⟨l', hl', rfl⟩ := hj
            rw [replay_snoc, ← hv j l' hl']
            exact hs.self
          · rw [List.getElem?_modify_ne _ _ (Ne.symm hji)] at hj
            rw [← hv j l hj]
            exact hs.other j hji
      · have hi := Nat.le_of_not_lt hi
        simp only [World.step, call_invalid hi c]
        refine ⟨hw, by rw [List.length_modify]; exact hl, fun j l hj => ?_⟩
        by_cases hji : j = i
        · subst hji
          rw [List.getElem?_modify_eq, List.getElem?_eq_none (hl ▸ hi)] at hj
          cases hj
        · rw [List.getElem?_modify_ne _ _ (Ne.symm hji)] at hj
          exact hv j l hj
    | clone i =>
      by_cases hi : i < (World.run evs).sessions.length
      · have hi' : i < (lineages evs).length := hl ▸ hi
        dsimp only
        rw [List.getElem?_eq_getElem hi']
        dsimp only
        have hlen : ((World.run evs).clone i).sessions.length = (World.run evs).sessions.length + 1 := by
          unfold World.clone
          rw [List.getElem?_eq_getElem hi]
          simp
        refine ⟨inv_clone hw i, ?_, fun j l hj => ?_⟩
        · simp only [World.step]
          rw [hlen, hl, List.length_append, List.length_singleton]
        · by_cases hjl : j < (lineages evs).length
          · rw [List.getElem?_append_left hjl] at hj
            rw [← hv j l hj]
            exact view_clone (hl ▸ hjl)
          · rw [List.getElem?_append_right (Nat.le_of_not_lt hjl)] at hj
            have hj0 : j - (lineages evs).length = 0 := by
              cases hk : j - (lineages evs).length with
              | zero => rfl
              | succ k => rw [hk] at hj; cases hj
            rw [hj0] at hj
            cases hj
            have : j = (World.run evs).sessions.length := by omega
            subst this
            rw [← hv i _ (List.getElem?_eq_getElem hi')]
            exact view_clone_new hi
      · have hi := Nat.le_of_not_lt hi
        have e : (World.run evs).clone i = World.run evs := by
          unfold World.clone; rw [List.getElem?_eq_none hi]
        dsimp only
        rw [List.getElem?_eq_none (hl ▸ hi)]
        simp only [World.step, e]
        exact ⟨hw, hl, hv⟩

end DD.Configure
