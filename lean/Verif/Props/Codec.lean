/-
C42 (plans survive the wire), C54 (metrics survive the wire), C55 (messages survive the wire).
-/
import Verif.Model.Codec

namespace DD.Codec

/-- The contract of the conversions this project does not implement: printing and parsing a URL, and
DataFusion's conversions of schemas and partitionings, give back what went in. -/
structure Faithful (L : Lib) : Prop where
  url : ∀ u, L.parseUrl (L.printUrl u) = some u
  schema : ∀ s b, L.encSchema s = .ok b → L.decSchema b = .ok s
  part : ∀ p b s, L.encPart p = .ok b → L.decPart b s = .ok (some p)

/-- The number of children each node really has: a boundary owns the plan of its stage while the stage is
local and nothing once it is remote. -/
def arityOk {L : Lib} : Kind L → Nat → Prop
  | .boundary _ _ _ st, n => match st.loc with
    | .here _ => n = 1
    | .remote _ => n = 0
  | .broadcast _, n => n = 1
  | .union _ _ _, n => 0 < n
  | .sampler, n => n = 1
  | .other _, _ => True

mutual
def WellFormed {L : Lib} : Plan L → Prop
  | .node k cs => arityOk k cs.length ∧ AllWellFormed cs
def AllWellFormed {L : Lib} : List (Plan L) → Prop
  | [] => True
  | p :: ps => WellFormed p ∧ AllWellFormed ps
end

theorem deserialize_serialize (u : Uuid) : deserializeUuid (serializeUuid u) = .ok u := by
  unfold deserializeUuid serializeUuid
  rw [dif_pos u.len]

theorem decodeUrls_print {L : Lib} (h : Faithful L) (us : List L.Url) :
    decodeUrls L (us.map fun w => some (L.printUrl w)) = .ok us := by
  induction us with
  | nil => rfl
  | cons u us ih =>
    simp only [List.map_cons, decodeUrls, h.url]
    rw [ih]
    rfl

theorem decodeStage_encode {L : Lib} (h : Faithful L) (st : Stage L.Url) (b : Bool)
    (hb : match st.loc with | .here _ => b = true | .remote _ => b = false) :
    decodeStage L (some (encodeStage L st)) b = .ok st := by
  obtain ⟨q, n, loc⟩ := st
  cases loc with
  | here t =>
    simp only at hb
    subst hb
    simp [decodeStage, encodeStage, deserialize_serialize, bind, Except.bind]
  | remote ws =>
    simp only at hb
    subst hb
    simp [decodeStage, encodeStage, deserialize_serialize, decodeUrls_print h, bind, Except.bind]

theorem decodeKind_encode {L : Lib} (h : Faithful L) (k : Kind L) (b : KindProto L) (n : Nat)
    (hk : arityOk k n) (he : encodeKind L k = .ok b) : decodeKind L n b = .ok k := by
  cases k with
  | boundary bd s p st =>
    simp only [encodeKind, bind, Except.bind] at he
    cases hs : L.encSchema s with
    | error e => simp [hs] at he
    | ok sb =>
      cases hp : L.encPart p with
      | error e => simp [hs, hp] at he
      | ok pb =>
        simp only [hs, hp, Except.ok.injEq] at he
        have hst : decodeStage L (some (encodeStage L st)) (decide (0 < n)) = .ok st := by
          apply decodeStage_encode h
          simp only [arityOk] at hk
          cases hl : st.loc with
          | here t =>
            simp only [hl] at hk
            subst hk
            rfl
          | remote ws =>
            simp only [hl] at hk
            subst hk
            rfl
        subst he
        cases bd <;>
          simp only [decodeKind, decodeBoundary, bind, Except.bind, h.schema _ _ hs,
            h.part _ _ s hp, hst]
  | broadcast c =>
    simp only [encodeKind, Except.ok.injEq] at he
    subst he
    simp only [arityOk] at hk
    subst hk
    rfl
  | union p m ws =>
    simp only [encodeKind, Except.ok.injEq] at he
    subst he
    simp only [arityOk] at hk
    simp only [decodeKind]
    rw [if_neg (by omega)]
    simp only [List.map_map]
    congr 2
    · have : ((fun v : List CtxProto => v.map fun e => (e.child, (⟨e.taskIdx, e.taskCount⟩ : TaskCtx))) ∘
          fun v : List Union.Entry => v.map fun e => (⟨e.1, e.2.index, e.2.count⟩ : CtxProto)) = id := by
        funext v
        simp only [Function.comp, List.map_map]
        exact List.map_id v
      rw [this, List.map_id]
    · exact List.map_id ws
  | sampler =>
    simp only [encodeKind, Except.ok.injEq] at he
    subst he
    simp only [arityOk] at hk
    subst hk
    rfl
  | other c =>
    simp only [encodeKind, Except.ok.injEq] at he
    subst he
    rfl

mutual
theorem decode_encode {L : Lib} (h : Faithful L) : ∀ (p : Plan L) (b : PlanProto L), WellFormed p →
    encode L p = .ok b → decode L b = .ok p
  | .node k cs, b, hw, he => by
    simp only [encode, bind, Except.bind] at he
    simp only [WellFormed] at hw
    cases hc : encodeAll L cs with
    | error e => simp [hc] at he
    | ok bs =>
      simp only [hc] at he
      cases hk : encodeKind L k with
      | error e => simp [hk] at he
      | ok kb =>
        simp only [hk, Except.ok.injEq] at he
        subst he
        simp only [decode, bind, Except.bind, decodeAll_encode h cs bs hw.2 hc]
        rw [decodeKind_encode h k kb _ hw.1 hk]
theorem decodeAll_encode {L : Lib} (h : Faithful L) : ∀ (ps : List (Plan L)) (bs : List (PlanProto L)),
    AllWellFormed ps → encodeAll L ps = .ok bs → decodeAll L bs = .ok ps
  | [], bs, _, he => by
    simp only [encodeAll, Except.ok.injEq] at he
    subst he
    rfl
  | p :: ps, bs, hw, he => by
    simp only [encodeAll, bind, Except.bind] at he
    simp only [AllWellFormed] at hw
    cases hp : encode L p with
    | error e => simp [hp] at he
    | ok b =>
      simp only [hp] at he
      cases hq : encodeAll L ps with
      | error e => simp [hq] at he
      | ok qs =>
        simp only [hq, Except.ok.injEq] at he
        subst he
        simp only [decodeAll, bind, Except.bind, decode_encode h p b hw.1 hp,
          decodeAll_encode h ps qs hw.2 hq]
end

/-- **C42.** A plan of any shape and depth, with local and remote stages, that could be encoded decodes to
the same plan: the same nodes in the same places, each with its kind, query, stage number, task count, worker
URLs, schema, partitioning and task assignment. -/
theorem C42_round_trip {L : Lib} (h : Faithful L) (p : Plan L) (b : PlanProto L) (hw : WellFormed p)
    (he : encode L p = .ok b) : decode L b = .ok p :=
  decode_encode h p b hw he

/-- **C42**, no confusion: two different plans are never encoded alike. -/
theorem C42_no_confusion {L : Lib} (h : Faithful L) (p q : Plan L) (b : PlanProto L) (hp : WellFormed p)
    (hq : WellFormed q) (ep : encode L p = .ok b) (eq : encode L q = .ok b) : p = q :=
  Except.ok.inj ((C42_round_trip h p b hp ep).symm.trans (C42_round_trip h q b hq eq))

theorem encodeKind_total {L : Lib} (hs : ∀ s, ∃ b, L.encSchema s = .ok b)
    (hp : ∀ p, ∃ b, L.encPart p = .ok b) (k : Kind L) : ∃ b, encodeKind L k = .ok b := by
  cases k with
  | boundary bd s p st =>
    obtain ⟨sb, hsb⟩ := hs s
    obtain ⟨pb, hpb⟩ := hp p
    simp only [encodeKind, hsb, hpb, bind, Except.bind]
    exact ⟨_, rfl⟩
  | broadcast c => exact ⟨_, rfl⟩
  | union p m ws => exact ⟨_, rfl⟩
  | sampler => exact ⟨_, rfl⟩
  | other c => exact ⟨_, rfl⟩

mutual
theorem encode_total {L : Lib} (hs : ∀ s, ∃ b, L.encSchema s = .ok b)
    (hp : ∀ p, ∃ b, L.encPart p = .ok b) : ∀ p : Plan L, ∃ b, encode L p = .ok b
  | .node k cs => by
    obtain ⟨bs, hbs⟩ := encodeAll_total hs hp cs
    obtain ⟨kb, hkb⟩ := encodeKind_total hs hp k
    exact ⟨.node kb bs, by simp only [encode, hbs, hkb, bind, Except.bind]⟩
theorem encodeAll_total {L : Lib} (hs : ∀ s, ∃ b, L.encSchema s = .ok b)
    (hp : ∀ p, ∃ b, L.encPart p = .ok b) : ∀ ps : List (Plan L), ∃ bs, encodeAll L ps = .ok bs
  | [] => ⟨[], rfl⟩
  | p :: ps => by
    obtain ⟨b, hb⟩ := encode_total hs hp p
    obtain ⟨bs, hbs⟩ := encodeAll_total hs hp ps
    exact ⟨b :: bs, by simp only [encodeAll, hb, hbs, bind, Except.bind]⟩
end

/-- **C42**, completeness: if schemas and partitionings can be encoded and decoded, every plan makes it
through. -/
theorem C42_every_plan_arrives {L : Lib} (h : Faithful L) (hs : ∀ s, ∃ b, L.encSchema s = .ok b)
    (hp : ∀ p, ∃ b, L.encPart p = .ok b) (p : Plan L) (hw : WellFormed p) :
    ∃ b, encode L p = .ok b ∧ decode L b = .ok p := by
  obtain ⟨b, hb⟩ := encode_total hs hp p
  exact ⟨b, hb, C42_round_trip h p b hw hb⟩

/-- **C42**, a boundary that lost its stage's plan on the way is refused if it has tasks: it is not taken
for a remote stage. -/
theorem C42_missing_input_refused {L : Lib} (b : Boundary) (s : Option L.SchemaPb) (p : Option L.PartPb)
    (q : Uuid) (num tasks : Nat) (k : Kind L) (ht : 0 < tasks) :
    decodeBoundary L b s p (some (encodeStage L ⟨q, num, .here tasks⟩)) false ≠ .ok k := by
  have hst : ∃ e, decodeStage L (some (encodeStage L ⟨q, num, .here tasks⟩)) false = .error e := by
    obtain ⟨t, rfl⟩ : ∃ t, tasks = t + 1 := ⟨tasks - 1, by omega⟩
    exact ⟨.internal "Missing URL in task",
      by simp [decodeStage, encodeStage, List.replicate_succ, decodeUrls, bind, Except.bind]⟩
  obtain ⟨e, he⟩ := hst
  intro hk
  unfold decodeBoundary at hk
  cases s with
  | none => simp at hk
  | some sb =>
    simp only [bind, Except.bind] at hk
    cases hs : L.decSchema sb with
    | error e => simp [hs] at hk
    | ok sch =>
      simp only [hs] at hk
      cases p with
      | none => simp at hk
      | some pb =>
        simp only at hk
        cases hp : L.decPart pb sch with
        | error e => simp [hp] at hk
        | ok o =>
          simp only [hp] at hk
          cases o with
          | none => simp at hk
          | some pt => simp [he] at hk

/-- A library for the examples. -/
@[reducible] def exLib : Lib where
  Url := Nat
  Schema := Nat
  SchemaPb := Nat
  Part := Nat
  PartPb := Nat
  printUrl := fun n => String.ofList (List.replicate n 'x')
  parseUrl := fun s => some s.toList.length
  encSchema := .ok
  decSchema := .ok
  encPart := .ok
  decPart := fun p _ => .ok (some p)

theorem exLib_faithful : Faithful exLib where
  url := fun u => by
    show some (String.ofList (List.replicate u 'x')).toList.length = some u
    rw [String.toList_ofList, List.length_replicate]
  schema := fun s b h => by
    have h' : s = b := Except.ok.inj h
    subst h'
    rfl
  part := fun p b s h => by
    have h' : p = b := Except.ok.inj h
    subst h'
    rfl

def exQuery : Uuid := ⟨List.replicate 16 7, rfl⟩

def exPlan : Plan exLib :=
  .node (.boundary .coalesce 1 2 ⟨exQuery, 2, .here 3⟩)
    [.node (.union 4 [[(0, ⟨0, 1⟩)], [(1, ⟨0, 1⟩)]] [⟨1, none⟩, ⟨1/2, some 1⟩])
      [.node .sampler [.node (.boundary .shuffle 1 4 ⟨exQuery, 0, .remote [3, 5]⟩) []],
       .node (.broadcast 3) [.node (.other 9) []]]]

/-- The hypotheses of the theorems hold of a plan with every kind of node. -/
example : WellFormed exPlan ∧ ∃ b, encode exLib exPlan = .ok b := by
  refine ⟨?_, ?_⟩
  · simp [exPlan, WellFormed, AllWellFormed, arityOk]
  · exact ⟨_, rfl⟩

/-! ### C54: metrics -/

/-- The metrics that can be sent: everything but custom metrics of somebody else. -/
def supported {Sk : Type} (m : Metric Sk) : Bool :=
  match m.value with
  | .custom _ => false
  | _ => true

/-- A timer that recorded nothing. -/
def zeroTime {Sk : Type} (m : Metric Sk) : Prop :=
  m.value = .elapsedCompute 0 ∨ ∃ s, m.value = .time s 0

theorem decodeMetric_encode {Sk : Type} (ser : Sk → Except Err Bytes) (de : Bytes → Except Err Sk)
    (hsk : ∀ k b, ser k = .ok b → de b = .ok k) (m : Metric Sk) (p : MetricProto) (hz : ¬ zeroTime m)
    (he : encodeMetric ser m = .ok p) : decodeMetric de p = .ok m := by
  obtain ⟨v, pt, ls⟩ := m
  have sk : ∀ (k : Sk) (f : Bytes → ValueProto) (g : Sk → Value Sk),
      (∀ b, decodeValue de (f b) = (de b >>= fun k => .ok (g k))) → 
      ((do let v ← (do let b ← ser k; Except.ok (f b)); Except.ok (⟨some v, pt, ls⟩ : MetricProto)) = .ok p) →
      decodeMetric de p = .ok ⟨g k, pt, ls⟩ := by
    intro k f g hf h
    cases hb : ser k with
    | error e => simp [hb, bind, Except.bind] at h
    | ok b =>
      simp only [hb, bind, Except.bind, Except.ok.injEq] at h
      subst h
      simp only [decodeMetric, hf, hsk k b hb, bind, Except.bind]
  have ts : ∀ (t : Option Int) (f : Option Int → ValueProto) (g : Option Int → Value Sk),
      (∀ b, decodeValue de (f b) = .ok (g b)) → 
      ((do let v ← (do let b ← nanosOpt t; Except.ok (f b)); Except.ok (⟨some v, pt, ls⟩ : MetricProto)) = .ok p) →
      decodeMetric de p = .ok ⟨g t, pt, ls⟩ := by
    intro t f g hf h
    have hn : ∀ x, nanosOpt t = .ok x → x = t := by
      intro x hx
      unfold nanosOpt at hx
      split at hx
      · exact (Except.ok.inj hx).symm
      · split at hx
        · exact (Except.ok.inj hx).symm
        · cases hx
    cases hb : nanosOpt t with
    | error e => simp [hb, bind, Except.bind] at h
    | ok x =>
      simp only [hb, bind, Except.bind, Except.ok.injEq] at h
      subst h
      rw [← hn x hb]
      simp only [decodeMetric, hf, bind, Except.bind]
  cases v with
  | elapsedCompute n =>
    have hn : n ≠ 0 := fun h0 => hz (Or.inl (by rw [h0]))
    have : timeOf n = n := by unfold timeOf; omega
    simp only [encodeMetric, encodeValue, bind, Except.bind, Except.ok.injEq] at he
    subst he
    simp only [decodeMetric, decodeValue, bind, Except.bind, this]
  | time s n =>
    have hn : n ≠ 0 := fun h0 => hz (Or.inr ⟨s, by rw [h0]⟩)
    have : timeOf n = n := by unfold timeOf; omega
    simp only [encodeMetric, encodeValue, bind, Except.bind, Except.ok.injEq] at he
    subst he
    simp only [decodeMetric, decodeValue, bind, Except.bind, this]
  | p50 s k => exact sk k (.p50 s) (.p50 s) (fun b => rfl) he
  | p75 s k => exact sk k (.p75 s) (.p75 s) (fun b => rfl) he
  | p95 s k => exact sk k (.p95 s) (.p95 s) (fun b => rfl) he
  | p99 s k => exact sk k (.p99 s) (.p99 s) (fun b => rfl) he
  | startTimestamp t => exact ts t .startTimestamp .startTimestamp (fun b => rfl) he
  | endTimestamp t => exact ts t .endTimestamp .endTimestamp (fun b => rfl) he
  | custom s => simp [encodeMetric, encodeValue, bind, Except.bind] at he
  | _ =>
    simp only [encodeMetric, encodeValue, bind, Except.bind, Except.ok.injEq] at he
    subst he
    rfl

/-- What can be sent of a metric set is sent, in order; the rest is left out without affecting it. -/
theorem encodeSet_spec {Sk : Type} (ser : Sk → Except Err Bytes) (de : Bytes → Except Err Sk)
    (hsk : ∀ k b, ser k = .ok b → de b = .ok k) (hser : ∀ k, ser k ≠ .error customNotSupported) :
    ∀ (ms : List (Metric Sk)) (ps : List MetricProto), (∀ m ∈ ms, ¬ zeroTime m) →
    encodeSet ser ms = .ok ps → decodeSet de ps = .ok (ms.filter supported)
  | [], ps, _, he => by
    simp only [encodeSet, Except.ok.injEq] at he
    subst he
    rfl
  | m :: ms, ps, hz, he => by
    have hz' := fun x hx => hz x (List.mem_cons_of_mem _ hx)
    unfold encodeSet at he
    cases hm : encodeMetric ser m with
    | ok p =>
      simp only [hm, bind, Except.bind] at he
      cases hms : encodeSet ser ms with
      | error e => simp [hms] at he
      | ok qs =>
        simp only [hms, Except.ok.injEq] at he
        subst he
        have hsup : supported m = true := by
          unfold supported
          cases hv : m.value <;> try rfl
          simp [encodeMetric, encodeValue, hv, bind, Except.bind] at hm
        have ih := encodeSet_spec ser de hsk hser ms qs hz' hms
        unfold decodeSet at ih ⊢
        rw [List.mapM_cons, decodeMetric_encode ser de hsk m p (hz m List.mem_cons_self) hm, ih,
          List.filter_cons_of_pos hsup]
        rfl
    | error e =>
      simp only [hm] at he
      by_cases hc : e = customNotSupported
      · rw [if_pos hc] at he
        have hsup : supported m = false := by
          unfold supported
          subst hc
          have sk : ∀ (k : Sk) (f : Bytes → ValueProto),
              ((do let v ← (do let b ← ser k; Except.ok (f b)); Except.ok (⟨some v, m.partition, m.labels⟩ : MetricProto)) = .error customNotSupported) → False := by
            intro k f h
            cases hb : ser k with
            | ok b => simp [hb, bind, Except.bind] at h
            | error e' =>
              simp only [hb, bind, Except.bind, Except.error.injEq] at h
              exact hser k (by rw [hb, h])
          have ts : ∀ (t : Option Int) (f : Option Int → ValueProto),
              ((do let v ← (do let b ← nanosOpt t; Except.ok (f b)); Except.ok (⟨some v, m.partition, m.labels⟩ : MetricProto)) = .error customNotSupported) → False := by
            intro t f h
            cases hb : nanosOpt t with
            | ok b => simp [hb, bind, Except.bind] at h
            | error e' =>
              simp only [hb, bind, Except.bind, Except.error.injEq] at h
              subst h
              unfold nanosOpt at hb
              split at hb
              · cases hb
              · split at hb
                · cases hb
                · exact absurd (Except.error.inj hb) (by unfold customNotSupported; decide)
          cases hv : m.value <;> simp only [encodeMetric, encodeValue, hv] at hm <;>
            first
            | rfl
            | exact (sk _ _ hm).elim
            | exact (ts _ _ hm).elim
            | (simp only [bind, Except.bind] at hm; cases hm)
        rw [List.filter_cons_of_neg (by simp [hsup])]
        exact encodeSet_spec ser de hsk hser ms ps hz' he
      · rw [if_neg hc] at he
        cases he

/-- **C54.** Every metric a worker can send arrives with the same kind, name, value, partition and labels, in
the same order; custom metrics it cannot send are left out and affect no other. Missing: timers that recorded
nothing (`C54_zero_time_changes`). -/
theorem C54_metrics_arrive_partial {Sk : Type} (ser : Sk → Except Err Bytes) (de : Bytes → Except Err Sk)
    (hsk : ∀ k b, ser k = .ok b → de b = .ok k) (hser : ∀ k, ser k ≠ .error customNotSupported)
    (t : TaskMetrics Sk) (p : TaskMetricsProto) (hz : ∀ m ∈ t.nodes.flatten ++ t.task, ¬ zeroTime m)
    (he : encodeTaskMetrics ser t = .ok p) :
    decodeTaskMetrics de p = .ok ⟨t.nodes.map (List.filter supported), t.task.filter supported⟩ := by
  have nodes : ∀ (ns : List (List (Metric Sk))) (bs : List (List MetricProto)),
      (∀ m ∈ ns.flatten, ¬ zeroTime m) → ns.mapM (encodeSet ser) = .ok bs →
      bs.mapM (decodeSet de) = .ok (ns.map (List.filter supported)) := by
    intro ns
    induction ns with
    | nil =>
      intro bs _ h
      simp only [List.mapM_nil, pure, Except.pure, Except.ok.injEq] at h
      subst h
      rfl
    | cons n ns ih =>
      intro bs hz h
      rw [List.mapM_cons] at h
      cases hn : encodeSet ser n with
      | error e => simp [hn, bind, Except.bind] at h
      | ok b =>
        cases hns : ns.mapM (encodeSet ser) with
        | error e => simp [hn, hns, bind, Except.bind] at h
        | ok qs =>
          simp only [hn, hns, bind, Except.bind, pure, Except.pure, Except.ok.injEq] at h
          subst h
          rw [List.mapM_cons, encodeSet_spec ser de hsk hser n b
            (fun m hm => hz m (by simp [hm])) hn,
            ih qs (fun m hm => hz m (by rw [List.flatten_cons]; exact List.mem_append_right _ hm)) hns]
          rfl
  unfold encodeTaskMetrics at he
  cases hn : t.nodes.mapM (encodeSet ser) with
  | error e => simp [hn, bind, Except.bind] at he
  | ok ns =>
    cases ht : encodeSet ser t.task with
    | error e => simp [hn, ht, bind, Except.bind] at he
    | ok ts =>
      simp only [hn, ht, bind, Except.bind, Except.ok.injEq] at he
      subst he
      unfold decodeTaskMetrics
      simp only [nodes t.nodes ns (fun m hm => hz m (List.mem_append_left _ hm)) hn,
        encodeSet_spec ser de hsk hser t.task ts (fun m hm => hz m (List.mem_append_right _ hm)) ht,
        bind, Except.bind]

/-- **C54**, the missing case: a timer that recorded nothing arrives as one nanosecond. -/
theorem C54_zero_time_changes {Sk : Type} (ser : Sk → Except Err Bytes) (de : Bytes → Except Err Sk)
    (pt : Option Nat) (ls : List (String × String)) (name : String) :
    ∃ p, encodeSet ser [⟨.time name 0, pt, ls⟩] = .ok p ∧
      decodeSet de p = .ok [⟨.time name 1, pt, ls⟩] :=
  ⟨_, rfl, rfl⟩

/-- **C54**, one metric can keep the whole report from being sent: a timestamp out of range. -/
theorem C54_timestamp_out_of_range {Sk : Type} (ser : Sk → Except Err Bytes) (t : Int)
    (ht : 2 ^ 63 ≤ t) (pre post : List (Metric Sk)) (pt : Option Nat) (ls : List (String × String)) :
    ∃ e, encodeSet ser (pre ++ ⟨.startTimestamp (some t), pt, ls⟩ :: post) = .error e := by
  induction pre with
  | nil =>
    have hm : encodeMetric ser ⟨.startTimestamp (some t), pt, ls⟩ =
        .error (.internal "timestamp out of range") := by
      have : ¬ (-(2 ^ 63) ≤ t ∧ t < 2 ^ 63) := by omega
      simp only [encodeMetric, encodeValue, nanosOpt, if_neg this, bind, Except.bind]
    refine ⟨.internal "timestamp out of range", ?_⟩
    rw [List.nil_append, encodeSet, hm]
    simp only
    rw [if_neg (by unfold customNotSupported; decide)]
  | cons m ms ih =>
    obtain ⟨e, he⟩ := ih
    rw [List.cons_append, encodeSet]
    cases hm : encodeMetric ser m with
    | ok p => exact ⟨e, by simp only [he, bind, Except.bind]⟩
    | error e' =>
      by_cases hc : e' = customNotSupported
      · exact ⟨e, by simp only [if_pos hc, he]⟩
      · exact ⟨e', by simp only [if_neg hc]⟩

/-- A report with a supported, a custom and a sketch metric meets the hypotheses of C54. -/
example : ∃ p, encodeTaskMetrics (Sk := Bytes) .ok
    ⟨[[⟨.count "rows" 5, some 1, [("a", "b")]⟩, ⟨.custom "x", none, []⟩], [⟨.p99 "lat" [1], none, []⟩]],
     [⟨.time "t" 4, none, []⟩]⟩ = .ok p ∧ decodeTaskMetrics (Sk := Bytes) .ok p =
    .ok ⟨[[⟨.count "rows" 5, some 1, [("a", "b")]⟩], [⟨.p99 "lat" [1], none, []⟩]],
     [⟨.time "t" 4, none, []⟩]⟩ := ⟨_, rfl, rfl⟩

/-! ### C55: messages -/

theorem decodeTaskKey_encode (k : TaskKey) : decodeTaskKey (encodeTaskKey k) = .ok k := by
  simp only [decodeTaskKey, encodeTaskKey, deserialize_serialize, bind, Except.bind]

theorem mapM_inverse {α β : Type} (f : α → β) (g : β → Except Err α) (h : ∀ a, g (f a) = .ok a)
    (l : List α) : (l.map f).mapM g = .ok l := by
  induction l with
  | nil => rfl
  | cons a l ih => rw [List.map_cons, List.mapM_cons, h, ih]; rfl

/-- **C55**, setting a plan: the worker receives the task, task count, plan bytes, feed declarations, own URL
and start time the coordinator sent. -/
theorem C55_set_plan {L : Lib} (h : Faithful L) (r : SetPlan L.Url) :
    decodeSetPlan L (encodeSetPlan L r) = .ok r := by
  have hf := mapM_inverse (fun f : Uuid × Nat => (serializeUuid f.1, f.2)) decodeFeed
    (fun a => by simp only [decodeFeed, deserialize_serialize, bind, Except.bind]) r.feeds
  simp only [decodeSetPlan, encodeSetPlan, decodeTaskKey_encode, hf, h.url, bind, Except.bind]

/-- **C55**, executing a task: the worker receives the task, partition range and producer head the consumer
asked for. -/
theorem C55_execute {P B : Type} (enc : P → Except Err B) (dec : B → Except Err P)
    (hp : ∀ p b, enc p = .ok b → dec b = .ok p) (r : Execute P) (m : ExecuteProto B)
    (he : encodeExecute enc r = .ok m) : decodeExecute dec m = .ok r := by
  obtain ⟨k, lo, hi, h⟩ := r
  unfold encodeExecute at he
  cases h with
  | none =>
    simp only [encodeHead, bind, Except.bind, Except.ok.injEq] at he
    subst he
    simp only [decodeExecute, decodeTaskKey_encode, decodeHead, bind, Except.bind]
  | broadcast n =>
    simp only [encodeHead, bind, Except.bind, Except.ok.injEq] at he
    subst he
    simp only [decodeExecute, decodeTaskKey_encode, decodeHead, bind, Except.bind]
  | repartition p =>
    cases hb : enc p with
    | error e => simp [encodeHead, hb, bind, Except.bind] at he
    | ok b =>
      simp only [encodeHead, hb, bind, Except.bind, Except.ok.injEq] at he
      subst he
      simp only [decodeExecute, decodeTaskKey_encode, decodeHead, hp p b hb, bind, Except.bind]

/-- **C55**, work units: a batch arrives with the same units, in order. -/
theorem C55_work_units (m : ToWorker) : decodeToWorker (encodeToWorker m) = .ok m := by
  cases m with
  | eos => rfl
  | batch b =>
    have hf := mapM_inverse encodeWorkUnit decodeWorkUnit
      (fun a => by simp only [decodeWorkUnit, encodeWorkUnit, deserialize_serialize, bind, Except.bind]) b
    simp only [encodeToWorker, decodeToWorker, hf, bind, Except.bind]

/-- **C55**, load reports. -/
theorem C55_load {F : Type} (l : Load F) : decodeLoad (encodeLoad l) = l := rfl

/-- **C55**, a message with a damaged task identity is refused, never attributed to another task. -/
theorem C55_damaged_key_refused (p : TaskKeyProto) (h : p.query.length ≠ 16) :
    ∃ e, decodeTaskKey p = .error e := by
  refine ⟨.internal "Invalid Uuid bytes", ?_⟩
  simp only [decodeTaskKey, deserializeUuid, dif_neg h, bind, Except.bind]

/-- **C55**, a second plan cannot be set through the same channel, and an empty message is refused. -/
theorem C55_protocol_violations_refused (p : SetPlanProto) :
    (∃ e, decodeToWorker (some (.setPlan p)) = .error e) ∧ (∃ e, decodeToWorker none = .error e) :=
  ⟨⟨_, rfl⟩, ⟨_, rfl⟩⟩

example : decodeSetPlan exLib (encodeSetPlan exLib
    ⟨⟨exQuery, 2, 1⟩, 4, [1, 2, 3], [(exQuery, 2)], (3 : Nat), 10⟩) =
    .ok ⟨⟨exQuery, 2, 1⟩, 4, [1, 2, 3], [(exQuery, 2)], (3 : Nat), 10⟩ :=
  C55_set_plan exLib_faithful _

example : ∃ m, encodeExecute (P := Nat) (B := Nat) .ok ⟨⟨exQuery, 2, 1⟩, 3, 6, .repartition 12⟩ = .ok m ∧
    decodeExecute (P := Nat) .ok m = .ok ⟨⟨exQuery, 2, 1⟩, 3, 6, .repartition 12⟩ := ⟨_, rfl, rfl⟩

end DD.Codec
