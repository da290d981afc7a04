/-
C80 for the stages of planned queries.
-/
import Verif.Props.Progress
import Verif.Props.Dynamic
import Verif.Props.MetricsRewrite

namespace DD.Tree

open Progress

variable {Row : Type} {env : Env Row}

/-- `q` occurs in `p`. -/
inductive Within (q : Plan Row) : Plan Row → Prop where
  | here : Within q q
  | deep {k tc cs c} : c ∈ cs → Within q c → Within q (.node k tc cs)

/-- What `ProducerHead::insert` sees of a node, `/repo/src/distributed_planner/network_boundary.rs:87-93`. -/
def rootKind : Kind Row → NodeKind
  | .hashRepart _ _ _ => .repartition
  | .otherRepart _ _ => .repartition
  | .broadcast _ => .broadcast
  | _ => .other

theorem within_strip {q c : Plan Row} (h : Within q c) (hq : q.kind.isNet = true) (hone : c.kind.isHead = true → c.children.length = 1) :
    Within q (strip c) := by
  obtain ⟨k, tc, cs⟩ := c
  by_cases hk : k.isHead = true
  · have hl := hone hk
    obtain ⟨x, rfl⟩ := List.length_eq_one_iff.mp hl
    have hs : strip (.node k tc [x]) = x := by
      cases k <;> first | rfl | cases hk
    rw [hs]
    cases h with
    | here =>
      exfalso
      change k.isNet = true at hq
      cases k <;> first | exact Bool.noConfusion hk | exact Bool.noConfusion hq
    | deep hc hw => rw [List.mem_singleton] at hc; subst hc; exact hw
  · have hs : strip (.node k tc cs) = .node k tc cs := by
      cases cs with
      | nil => rfl
      | cons x xs => simp only [strip, hk, if_false, Bool.false_eq_true]
    rw [hs]; exact h

/-- The input of a broadcast boundary has a broadcast at its root. -/
theorem legal_broadcast_root {ph : Bool} {T : Nat} {p : Plan Row} {I : Info Row} (h : Legal ph T p I) :
    ∀ a N num tc cs, Within (.node (.netBroadcast a N num) tc cs) p → ∃ n tc' x, cs = [.node (.broadcast n) tc' [x]] := by
  induction h with
  | leaf =>
    intro a N num tc cs hw
    cases hw with
    | deep hc _ => cases hc
  | distLeaf =>
    intro a N num tc cs hw
    cases hw with
    | deep hc _ => cases hc
  | opLocal _ _ _ _ ih | hashRepart _ _ _ ih | otherRepart _ _ _ ih | coalesce _ ih | spm _ ih | broadcast _ ih =>
    intro a N num tc cs hw
    cases hw with
    | deep hc hw => rw [List.mem_singleton] at hc; subst hc; exact ih _ _ _ _ _ hw
  | fetch hk _ _ ih =>
    intro a N num tc cs hw
    cases hw with
    | here => rcases hk with hk | ⟨_, hk⟩ <;> cases hk
    | deep hc hw => rw [List.mem_singleton] at hc; subst hc; exact ih _ _ _ _ _ hw
  | opKeyed _ _ _ _ hl1 hl2 _ ih =>
    intro a N num tc cs hw
    cases hw with
    | deep hc hw =>
      obtain ⟨i, hi, hic⟩ := List.mem_iff_getElem.mp hc
      exact ih i _ _ _ (by rw [List.getElem?_eq_getElem hi, hic]) (List.getElem?_eq_getElem (hl1 ▸ hi)) (List.getElem?_eq_getElem (hl2 ▸ hi)) _ _ _ _ _ hw
  | opSingle _ _ _ hl _ ih =>
    intro a N num tc cs hw
    cases hw with
    | deep hc hw =>
      obtain ⟨i, hi, hic⟩ := List.mem_iff_getElem.mp hc
      exact ih i _ _ (by rw [List.getElem?_eq_getElem hi, hic]) (List.getElem?_eq_getElem (hl ▸ hi)) _ _ _ _ _ hw
  | joinSafe _ _ _ _ _ ih1 ih2 | joinSingle _ _ _ _ ih1 ih2 | joinPart _ _ _ _ _ ih1 ih2 =>
    intro a N num tc cs hw
    cases hw with
    | deep hc hw =>
      rcases List.mem_cons.mp hc with hc | hc
      · subst hc; exact ih1 _ _ _ _ _ hw
      · rw [List.mem_singleton] at hc; subst hc; exact ih2 _ _ _ _ _ hw
  | union _ hl _ ih =>
    intro a N num tc cs hw
    cases hw with
    | deep hc hw =>
      obtain ⟨i, hi, hic⟩ := List.mem_iff_getElem.mp hc
      exact ih i _ _ (by rw [List.getElem?_eq_getElem hi, hic]) (List.getElem?_eq_getElem (hl ▸ hi)) _ _ _ _ _ hw
  | ciu _ hl _ _ _ _ ih =>
    intro a N num tc cs hw
    cases hw with
    | deep hc hw =>
      obtain ⟨i, hi, hic⟩ := List.mem_iff_getElem.mp hc
      exact ih i _ _ (by rw [List.getElem?_eq_getElem hi, hic]) (List.getElem?_eq_getElem (hl ▸ hi)) _ _ _ _ _ hw
  | shuffle _ _ _ hh _ ih =>
    intro a N num tc cs hw
    cases hw with
    | deep hc hw => rw [List.mem_singleton] at hc; subst hc; exact ih _ _ _ _ _ (within_strip hw rfl hh.2)
  | netCoalesce _ _ hh _ _ ih =>
    intro a N num tc cs hw
    cases hw with
    | deep hc hw =>
      rw [List.mem_singleton] at hc; subst hc
      exact ih _ _ _ _ _ (within_strip hw rfl (by rw [hh]; intro h; cases h))
  | netBroadcast _ hb _ ih =>
    obtain ⟨n, tc', x, rfl, -⟩ := hb
    intro a N num tc cs hw
    cases hw with
    | here => exact ⟨n, tc', x, rfl⟩
    | deep hc hw =>
      rw [List.mem_singleton] at hc; subst hc
      exact ih _ _ _ _ _ (within_strip hw rfl (fun _ => rfl))
  | forget _ ih | «trivial» _ ih | repFlip _ ih | coarsen _ _ ih => exact ih

/-- **C80 fails for every broadcast stage.** In every plan the planner makes, the tasks below a broadcast boundary
get a plan with a broadcast at its root. So, in every history of a worker, every report about such a task shows zero rows,
however many it produced. -/
theorem C80_broadcast_stages_show_no_rows (he : EnvOk env) {p p' : Plan Row} {J : SInfo Row}
    (h : Src env .pre p J) (hrep : J.rep = false) (hroot : RootOk env p J) (hp : plan env p = .ok (some p'))
    {a N num tc cs} (hin : Within (.node (.netBroadcast a N num) tc cs) p')
    {Key : Type} [DecidableEq Key] (evs : List (Ev Key)) (k : Key) (tp : TaskProgress Key)
    (hdec : ∀ c base col, .setPlan c (.ok (base, col)) ∈ regs evs → Decoded base)
    (hstage : ∀ c base col, .openChannel c k ∈ regs evs → .setPlan c (.ok (base, col)) ∈ regs evs →
      ∃ s ∈ cs, base.kind = rootKind s.kind)
    (hr : progressOf (runEv St.init evs) k = some tp) : tp.rows = 0 := by
  obtain ⟨_, hl, -⟩ := plan_src he h hrep hroot hp
  obtain ⟨n, tc', x, rfl⟩ := legal_broadcast_root hl _ _ _ _ _ hin
  refine C80_headed_tasks_show_no_rows evs k tp hdec ?_ hr
  intro c base col h1 h2
  obtain ⟨s, hs, hk⟩ := hstage c base col h1 h2
  rw [List.mem_singleton] at hs
  subst hs
  rw [hk]
  simp [rootKind, Plan.kind]

theorem rootKind_head {k : Kind Row} (h : k.isHead = true) : rootKind k ≠ .other := by
  cases k <;> first | exact Bool.noConfusion h | simp [rootKind]

/-- **C80 fails for every shuffle and broadcast stage of dynamic plans.** -/
theorem C80_dynamic_stages_show_no_rows (he : EnvOk env) (hs : ScalesLeaves env) {p p' : Plan Row} (hu : Undistributed p)
    (cpu : Plan Row → Plan Row → Except Err (Option Nat)) (bytes : Nat)
    (hp : dynamicPlan (env.costing cpu bytes) p = .ok p') {t : Nat} {x : Plan Row} (hx : At 1 p' t x)
    (hkind : (∃ h n m i, x.kind = .shuffle h n m i) ∨ ∃ n m i, x.kind = .netBroadcast n m i)
    {Key : Type} [DecidableEq Key] (evs : List (Ev Key)) (k : Key) (tp : TaskProgress Key)
    (hdec : ∀ c base col, .setPlan c (.ok (base, col)) ∈ regs evs → Decoded base)
    (hstage : ∀ c base col, .openChannel c k ∈ regs evs → .setPlan c (.ok (base, col)) ∈ regs evs →
      ∃ s ∈ x.children, base.kind = rootKind s.kind)
    (hr : progressOf (runEv St.init evs) k = some tp) : tp.rows = 0 := by
  obtain ⟨kd, tc, tc', y, e, hh⟩ := C58_every_asked_stage_has_a_sampler he hs hu cpu bytes hp hx hkind
  refine C80_headed_tasks_show_no_rows evs k tp hdec ?_ hr
  intro c base col h1 h2
  obtain ⟨s, hs, hk⟩ := hstage c base col h1 h2
  rw [e, List.mem_singleton] at hs
  subst hs
  rw [hk]
  exact rootKind_head hh

/-- A plan that has the head a boundary asks for has it at its root. -/
theorem insert_self_root {x c : Plan Row} {t : Nat}
    (hkind : (∃ h n m i, x.kind = .shuffle h n m i) ∨ ∃ n m i, x.kind = .netBroadcast n m i)
    (h : (x.kind.head t).insert c = .ok c) : rootKind c.kind ≠ .other := by
  rcases hkind with ⟨h', n, m, i, hk⟩ | ⟨n, m, i, hk⟩ <;> rw [hk] at h
  · have h := Except.ok.inj h
    rw [← h]
    simp [rootKind, Plan.kind]
  · simp only [Kind.head, Head.insert] at h
    cases hb : BroadcastExec.ofHead (strip c).parts (n * t) with
    | error e => rw [hb] at h; cases h
    | ok b =>
      rw [hb] at h
      have h := Except.ok.inj h
      rw [← h]
      simp [rootKind, Plan.kind]

/-- **C80 fails for every shuffle and broadcast stage of plans made before running**, unless partial reduction is on (then a
stage can have an aggregation at its root). -/
theorem C80_static_stages_show_no_rows (he : EnvOk env) (hs : ScalesLeaves env) {p p' : Plan Row} (hu : Undistributed p)
    (hp : plan env p = .ok (some p')) (hpr : env.partialReduce = false) {t : Nat} {x : Plan Row} (hx : At 1 p' t x)
    (hkind : (∃ h n m i, x.kind = .shuffle h n m i) ∨ ∃ n m i, x.kind = .netBroadcast n m i)
    (hone : x.children.length = 1)
    {Key : Type} [DecidableEq Key] (evs : List (Ev Key)) (k : Key) (tp : TaskProgress Key)
    (hdec : ∀ c base col, .setPlan c (.ok (base, col)) ∈ regs evs → Decoded base)
    (hstage : ∀ c base col, .openChannel c k ∈ regs evs → .setPlan c (.ok (base, col)) ∈ regs evs →
      ∃ s ∈ x.children, base.kind = rootKind s.kind)
    (hr : progressOf (runEv St.init evs) k = some tp) : tp.rows = 0 := by
  obtain ⟨y, hy⟩ := List.length_eq_one_iff.mp hone
  have hn : x.kind.isNet = true := by
    rcases hkind with ⟨h', n, m, i, hk⟩ | ⟨n, m, i, hk⟩ <;> rw [hk] <;> rfl
  have hh := Metrics.planned_heads he hs hu hp hpr hx hn hy (by
    rcases hkind with ⟨h', n, m, i, hk⟩ | ⟨n, m, i, hk⟩ <;> rw [hk] <;> intro _ _ _ e <;> cases e)
  refine C80_headed_tasks_show_no_rows evs k tp hdec ?_ hr
  intro c base col h1 h2
  obtain ⟨s, hs, hk⟩ := hstage c base col h1 h2
  rw [hy, List.mem_singleton] at hs
  subst hs
  rw [hk]
  exact insert_self_root hkind hh

namespace Demo

mutual
/-- The roots of the stages read through shuffles and broadcasts. -/
def stageRoots : Plan (Nat × Nat) → List NodeKind
  | .node k _ cs => stageRootsAll cs ++ (match k, cs with
    | .shuffle _ _ _ _, [c] => [rootKind c.kind]
    | .netBroadcast _ _ _, [c] => [rootKind c.kind]
    | _, _ => [])
def stageRootsAll : List (Plan (Nat × Nat)) → List NodeKind
  | [] => []
  | c :: cs => stageRoots c ++ stageRootsAll cs
end

end Demo

/-- Non-vacuity: a query with a broadcast stage. -/
example : ∃ p', dynamicPlan Demo.dyn Demo.input = .ok p' ∧ Demo.stageRoots p' = [.broadcast] ∧ EnvOk Demo.sess
    ∧ ScalesLeaves Demo.sess ∧ Undistributed Demo.input :=
  ⟨_, Demo.dynOr_ok (p := Demo.input) (by decide +kernel), by decide +kernel, Demo.sess_ok, Demo.sess_scales,
    undistributed_of (by decide +kernel)⟩

/-- Non-vacuity: a two-step aggregation over it, made before running, has a broadcast and a shuffle stage, and both have their
head at the root. With partial reduction the shuffle stage has an aggregation at its root. -/
example : (∃ p', plan Metrics.Demo.plainSess (twoStep Demo.sum id 4 Demo.input) = .ok (some p') ∧ Demo.stageRoots p' = [.broadcast, .repartition])
    ∧ (∃ p', plan Demo.sess (twoStep Demo.sum id 4 Demo.input) = .ok (some p') ∧ Demo.stageRoots p' = [.broadcast, .other])
    ∧ EnvOk Metrics.Demo.plainSess ∧ ScalesLeaves Metrics.Demo.plainSess ∧ Metrics.Demo.plainSess.partialReduce = false
    ∧ Undistributed (twoStep Demo.sum id 4 Demo.input) := by
  have key : ∀ (env : Env (Nat × Nat)) q r, (match plan env q with
      | .ok (some p) => decide (Demo.stageRoots p = r)
      | _ => false) = true → ∃ p', plan env q = .ok (some p') ∧ Demo.stageRoots p' = r := by
    intro env q r h
    cases hp : plan env q with
    | error e => rw [hp] at h; cases h
    | ok o =>
      cases o with
      | none => rw [hp] at h; cases h
      | some p' => rw [hp] at h; exact ⟨p', rfl, of_decide_eq_true h⟩
  exact ⟨key _ _ _ (by decide +kernel), key _ _ _ (by decide +kernel), Metrics.Demo.plain_ok, Metrics.Demo.plain_scales, rfl,
    undistributed_of (by decide +kernel)⟩

end DD.Tree
