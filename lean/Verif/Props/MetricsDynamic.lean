/-
**C44**, **C83** for plans whose task counts are chosen while the query runs.
-/
import Verif.Props.Analyze
import Verif.Props.Rewrite

namespace DD.Metrics

open DD.Tree DD.Tree.Rec

variable {Row V : Type} {env : Env Row}

/-- The stages of a plan made while the query runs have the heads their consumers ask for: reconstructing the plan for
display puts them there (prepare_dynamic_plan.rs:168-179). -/
theorem dynamic_heads (he : EnvOk env) (hs : ScalesLeaves env) {p p' : Plan Row} (hu : Undistributed p)
    (hp : dynamicPlan env p = .ok p') {t : Nat} {x c : Plan Row} (hx : At 1 p' t x) (hn : x.kind.isNet = true)
    (hc : x.children = [c]) (hco : ∀ P n i, x.kind = .netCoalesce P n i → c.kind.isHead = false) :
    (x.kind.head t).insert c = .ok c :=
  heads_of_post (dynamic_post (D := False) he hs False.elim hu (fun _ d => d.elim) hp t x hx) hc hco hn

/-- **C44** (plans made while the query runs) Whatever the costs of the stages: if every task of every stage reported what
the nodes of the plan it ran recorded - the sampler is one of them -, showing the metrics succeeds; every node of the
head stage has what it recorded itself; every stage is shown once; every node of a stage has, for each task that runs it,
what that task recorded for it. There is no partial reduction in such plans, so unlike for
`C44_shown_where_recorded_partial` no setting is excluded. -/
theorem C44_dynamic_shown_where_recorded (he : EnvOk env) (hs : ScalesLeaves env) {p p' : Plan Row}
    (hu : Undistributed p) {J : SInfo Row} (hsrc : Src env .pre p J) (hrep : J.rep = false) (hroot : RootOk env p J)
    (cpu : Plan Row → Plan Row → Except Err (Option Nat)) (bytes : Nat)
    (hp : dynamicPlan (env.costing cpu bytes) p = .ok p')
    {addr : Nat → Path → Nat} {query : Nat} {store : Store V} {headRecorded : Path → List (Metric V)}
    {recorded : Nat → Nat → Path → List (Metric V)}
    (hdist : ∀ t x c, At 1 p' t x → x.kind.isNet = true → x.children = [c] → Distinct (addr x.kind.num) c)
    (hstore : ∀ t x c, At 1 p' t x → x.kind.isNet = true → x.children = [c] → ∀ i < x.kind.tasks,
      ∃ w r, workerPlan x.kind t (share ⟨i, x.kind.tasks⟩ c) = .ok w
        ∧ report w ⟨i, x.kind.tasks⟩ (recorded x.kind.num i) = .ok r ∧ store ⟨query, x.kind.num, i⟩ = some r)
    (f : Format) :
    ∃ shown, rewritePlan f addr query store p' headRecorded = .ok shown
      ∧ shown.head = (nodes p').map (fun x => (x, (headRecorded x).map (shownFor f 0)))
      ∧ (shown.stages.map (·.1)).Perm (stageNums p') ∧ (shown.stages.map (·.1)).Nodup
      ∧ ∀ t x c, At 1 p' t x → x.kind.isNet = true → x.children = [c] →
        (x.kind.num, (nodes c).map fun y => (y, expected f x.kind.tasks c (recorded x.kind.num) y)) ∈ shown.stages := by
  have he' := he.costing cpu bytes
  obtain ⟨d, hl, _⟩ := dynamic_src he' (hsrc.costing cpu bytes) hrep (hroot.costing cpu bytes) hp
  exact shown_of_heads hl (dynamic_nums he' (hsrc.costing cpu bytes) hrep (hroot.costing cpu bytes) hp)
    (fun _ _ _ hat hn hc hco => dynamic_heads he' hs hu hp hat hn hc hco) hdist hstore f

/-- **C44** For every such plan and whatever its nodes record there is a store in which every task has reported. -/
theorem C44_dynamic_reports_exist (he : EnvOk env) (hs : ScalesLeaves env) {p p' : Plan Row}
    (hu : Undistributed p) {J : SInfo Row} (hsrc : Src env .pre p J) (hrep : J.rep = false) (hroot : RootOk env p J)
    (cpu : Plan Row → Plan Row → Except Err (Option Nat)) (bytes : Nat)
    (hp : dynamicPlan (env.costing cpu bytes) p = .ok p') (query : Nat)
    (recorded : Nat → Nat → Path → List (Metric V)) :
    ∃ store : Store V, ∀ t x c, At 1 p' t x → x.kind.isNet = true → x.children = [c] → ∀ i < x.kind.tasks,
      ∃ w r, workerPlan x.kind t (share ⟨i, x.kind.tasks⟩ c) = .ok w
        ∧ report w ⟨i, x.kind.tasks⟩ (recorded x.kind.num i) = .ok r ∧ store ⟨query, x.kind.num, i⟩ = some r := by
  have he' := he.costing cpu bytes
  obtain ⟨d, hl, _⟩ := dynamic_src he' (hsrc.costing cpu bytes) hrep (hroot.costing cpu bytes) hp
  exact reports_of_heads hl (dynamic_nums he' (hsrc.costing cpu bytes) hrep (hroot.costing cpu bytes) hp)
    (fun _ _ _ hat hn hc hco => dynamic_heads he' hs hu hp hat hn hc hco) query recorded

end DD.Metrics

namespace DD.Analyze

open DD.Tree DD.Tree.Rec DD.Metrics

variable {Row V : Type} {env : Env Row}

/-- **C83** (plans made while the query runs) Whatever the costs of the stages: if the query runs without error and every
task reports, `EXPLAIN ANALYZE` returns the documented table: the number of output rows is that of an answer of the query,
and the plan is shown with all metrics, those of each node on that node. -/
theorem C83_dynamic (he : EnvOk env) (hs : ScalesLeaves env) {p p' : Plan Row}
    (hu : Undistributed p) {J : SInfo Row} (hsrc : Src env .pre p J) (hE : J.eqv = .perm) (hrep : J.rep = false)
    (hroot : RootOk env p J) (cpu : Plan Row → Plan Row → Except Err (Option Nat)) (bytes : Nat)
    (hp : dynamicPlan (env.costing cpu bytes) p = .ok p')
    {addr : Nat → Path → Nat} {query : Nat} {store : Store V} {headRecorded : Path → List (Metric V)}
    {recorded : Nat → Nat → Path → List (Metric V)}
    (hdist : ∀ t x c, At 1 p' t x → x.kind.isNet = true → x.children = [c] → Distinct (addr x.kind.num) c)
    (hstore : ∀ t x c, At 1 p' t x → x.kind.isNet = true → x.children = [c] → ∀ i < x.kind.tasks,
      ∃ w r, workerPlan x.kind t (share ⟨i, x.kind.tasks⟩ c) = .ok w
        ∧ report w ⟨i, x.kind.tasks⟩ (recorded x.kind.num i) = .ok r ∧ store ⟨query, x.kind.num, i⟩ = some r)
    {head : Nat → Except Err (Stream Row)} {s : Stream Row} (hrun : head 0 = .ok s) (hy : Yields s (distributed p'))
    (verbose : Bool) (display : Option (Shown V) → String) (duration : String) :
    ∃ (d : List Row) (shown : Format → Shown V), Answer p d ∧
      execute verbose (distExecute (.ok head) (.ok ())) display addr query (some store) (some (p', headRecorded)) duration 0 =
        some (.ok (table verbose d.length duration (display (some (shown .aggregated))) (display (some (shown .perTask))))) ∧
      ∀ f, (shown f).head = (nodes p').map (fun x => (x, (headRecorded x).map (shownFor f 0)))
        ∧ ((shown f).stages.map (·.1)).Perm (stageNums p') ∧ ((shown f).stages.map (·.1)).Nodup
        ∧ ∀ t x c, At 1 p' t x → x.kind.isNet = true → x.children = [c] →
          (x.kind.num, (nodes c).map fun y => (y, expected f x.kind.tasks c (recorded x.kind.num) y)) ∈ (shown f).stages := by
  obtain ⟨_, d, hd, hperm⟩ := C58_is_an_answer_partial he hsrc hE hrep hroot cpu bytes hp
  obtain ⟨_, hl, _⟩ := dynamic_src (he.costing cpu bytes) (hsrc.costing cpu bytes) hrep (hroot.costing cpu bytes) hp
  exact analyze_of_shown hd hperm hl hstore (fun f => C44_dynamic_shown_where_recorded (V := V) he hs hu hsrc hrep hroot cpu bytes
    hp hdist hstore (headRecorded := headRecorded) f) hrun hy verbose display duration

/-- A query with a broadcast join whose two stages run in three and four tasks, chosen while it runs, whatever its nodes
record and however its rows come in batches. -/
example (recorded : Nat → Nat → Path → List (Metric Nat)) (headRecorded : Path → List (Metric Nat))
    (display : Option (Shown Nat) → String) :
    ∃ p' store, dynamicPlan Tree.Demo.dyn Tree.Demo.input = .ok p' ∧ Tree.Demo.stageTasks p' = [3, 4] ∧
      ∀ s : Stream (Nat × Nat), Yields s (distributed p') → ∃ d plan full, Answer Tree.Demo.input d ∧
        execute true (distExecute (.ok fun _ => .ok s) (.ok ())) display (fun _ => Encodable.encode) 7 (some store)
          (some (p', headRecorded)) "1ms" 0 = some (.ok (table true d.length "1ms" plan full)) := by
  have hp := Tree.Demo.dynOr_ok (p := Tree.Demo.input) (by decide +kernel)
  have hu : Undistributed Tree.Demo.input := undistributed_of (by decide +kernel)
  have hroot : RootOk Tree.Demo.sess Tree.Demo.input ⟨none, false, false, .perm, false⟩ := .inr (by
    intro p1 h1
    have : normalize Tree.Demo.sess Tree.Demo.input = .ok Tree.Demo.input := by rfl
    rw [this] at h1; cases h1
    exact ⟨by decide +kernel, rfl⟩)
  obtain ⟨store, hstore⟩ := C44_dynamic_reports_exist Tree.Demo.sess_ok Tree.Demo.sess_scales hu Tree.Demo.input_src rfl hroot
    Tree.Demo.cost 5 hp 7 recorded
  refine ⟨_, store, hp, by decide +kernel, fun s hy => ?_⟩
  obtain ⟨d, shown, hd, h, _⟩ := C83_dynamic Tree.Demo.sess_ok Tree.Demo.sess_scales hu Tree.Demo.input_src rfl rfl hroot
    Tree.Demo.cost 5 hp (addr := fun _ => Encodable.encode) (headRecorded := headRecorded)
    (fun _ _ _ _ _ _ x y _ _ h => Encodable.encode_injective h) hstore (head := fun _ => .ok s) rfl hy true display "1ms"
  exact ⟨d, _, _, hd, h⟩

end DD.Analyze
