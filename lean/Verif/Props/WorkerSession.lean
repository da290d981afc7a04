import Verif.Model.WorkerSession
import Verif.Props.Headers
/-
C64: the settings a task runs with are those of the session that started the query.
-/
namespace DD.Session

open Headers

/-- The contract of `f64`: reading what was printed gives the same number, and it is printed in visible characters. -/
structure FloatLaw (fl : Float) : Prop where
  parse_print : ∀ x, fl.parse (fl.print x) = some x
  visible : ∀ x, (fl.print x).all visible

/-! ### Printing and reading -/

theorem digit_val (d : Nat) (h : d < 10) : digitVal d.digitChar = some d ∧ visible d.digitChar = true ∧ d.digitChar ≠ '+' := by
  have : ∀ d : Fin 10, digitVal d.val.digitChar = some d.val ∧ visible d.val.digitChar = true ∧ d.val.digitChar ≠ '+' := by
    decide +kernel
  exact this ⟨d, h⟩

theorem parseDigits_append (l l' : Str) : ∀ acc, parseDigits acc (l ++ l') = (parseDigits acc l).bind fun a => parseDigits a l' := by
  induction l with
  | nil => intro acc; rfl
  | cons c cs ih =>
    intro acc
    simp only [List.cons_append, parseDigits]
    cases digitVal c with
    | none => rfl
    | some d => exact ih _

theorem parseDigits_digits (l : List Nat) (h : ∀ d ∈ l, d < 10) :
    parseDigits 0 (l.reverse.map Nat.digitChar) = some (Nat.ofDigits 10 l) := by
  induction l with
  | nil => rfl
  | cons d l ih =>
    rw [List.reverse_cons, List.map_append, parseDigits_append, ih fun x hx => h x (List.mem_cons_of_mem _ hx)]
    simp only [Option.bind_some, List.map_cons, List.map_nil, parseDigits, (digit_val d (h d (List.mem_cons_self ..))).1,
      Nat.ofDigits_cons]
    congr 1
    omega

theorem printNat_spec (n : Nat) : parseDigits 0 (printNat n) = some n ∧ printNat n ≠ [] ∧
    ∀ c ∈ printNat n, visible c = true ∧ c ≠ '+' := by
  unfold printNat
  split
  · rename_i h
    subst h
    exact ⟨by decide +kernel, by simp, by decide +kernel⟩
  · rename_i h
    have hd : ∀ d ∈ Nat.digits 10 n, d < 10 := fun d hd => Nat.digits_lt_base (by omega) hd
    refine ⟨by rw [parseDigits_digits _ hd, Nat.ofDigits_digits], ?_, ?_⟩
    · simpa [Nat.digits_eq_nil_iff_eq_zero] using h
    · intro c hc
      obtain ⟨d, hdm, rfl⟩ := List.mem_map.mp hc
      exact (digit_val d (hd d (List.mem_reverse.mp hdm))).2

theorem parseUsize_print (n : Fin (2 ^ 64)) : parseUsize (printNat n.val) = some n := by
  obtain ⟨h1, h2, h3⟩ := printNat_spec n.val
  unfold parseUsize
  rcases hp : printNat n.val with _ | ⟨c, cs⟩
  · exact absurd hp h2
  · have hc : c ≠ '+' := (h3 c (by rw [hp]; exact List.mem_cons_self ..)).2
    have : stripPlus (c :: cs) = c :: cs := by
      unfold stripPlus
      split
      · rename_i heq; exact absurd (List.cons.inj heq).1 hc
      · rfl
    rw [this]
    rw [hp] at h1
    simp [h1, n.isLt]

theorem parse_print {fl : Float} (hf : FloatLaw fl) (k : Kind) (x : k.Val fl) : parse fl k (print fl k x) = some x := by
  cases k with
  | usize => exact parseUsize_print x
  | bool =>
    have : ∀ b : Bool, parseBool (printBool b) = some b := by decide +kernel
    exact this x
  | float => exact hf.parse_print x
  | text => rfl

theorem print_visible {fl : Float} (hf : FloatLaw fl) (k : Kind) (hk : k ≠ .text) (x : k.Val fl) : (print fl k x).all visible = true := by
  cases k with
  | usize =>
    rw [List.all_eq_true]
    exact fun c hc => ((printNat_spec x.val).2.2 c hc).1
  | bool =>
    have : ∀ b : Bool, (printBool b).all visible = true := by decide +kernel
    exact this x
  | float => exact hf.visible x
  | text => exact absurd rfl hk

theorem ofKey_key (f : Field) : Field.ofKey f.key = some f := by
  cases f <;> decide +kernel

theorem key_of_ofKey {k : Str} {f : Field} (h : Field.ofKey k = some f) : f.key = k := by
  have := List.find?_some h
  simpa using this

theorem mem_all (f : Field) : f ∈ Field.all := by cases f <;> decide

theorem distExt_lawful {fl : Float} (hf : FloatLaw fl) : Lawful (distExt fl) where
  set_ok := by
    intro s s0 k v hk hg
    obtain ⟨f, _, rfl⟩ := List.mem_map.mp hk
    change Config fl at s s0
    replace hg : (Field.ofKey f.key).map (fun f => print fl f.kind (s0 f)) = some v := hg
    rw [ofKey_key] at hg
    obtain rfl := Option.some.inj hg
    refine ⟨(Function.update s f (s0 f) : Config fl), ?_, ?_, ?_⟩
    · simp only [distExt, ofKey_key, parse_print hf]
    · simp only [distExt, ofKey_key, Option.map_some]
      congr 2
      exact Function.update_self f (s0 f) s
    · intro k' hk'
      simp only [distExt]
      rcases ho : Field.ofKey k' with _ | f'
      · rfl
      · have : f' ≠ f := by rintro rfl; exact hk' (key_of_ofKey ho).symm
        simp only [Option.map_some]
        congr 2
        exact Function.update_of_ne this (s0 f) s

theorem keys_plain (f : Field) : PlainKey distPrefix f.key := by
  have : ∀ f ∈ Field.all, (∀ c ∈ f.key, tokenChar c = true ∧ c.toLower = c) ∧ ¬ (distPrefix ++ ['.']) <+: f.key := by
    decide +kernel
  exact ⟨(this f (mem_all f)).1, (this f (mem_all f)).2⟩

theorem keys_nodup : (Field.all.map Field.key).Nodup := by decide +kernel

theorem prefix_plain : PlainPrefix distPrefix :=
  ⟨by unfold Plain; decide +kernel, by decide +kernel, by decide +kernel⟩

/-! ### Sessions -/

/-- What is asked of the other extensions and of the passthrough headers: those C40 and C41 ask. -/
structure WellFormed {fl : Float} (s : Coordinator fl) (given : HeaderMap) : Prop where
  custom : Sendable s.prefixes s.custom
  names : ∀ e ∈ s.custom, e.1 ≠ distPrefix
  accepted : setPassthrough given = .ok given
  foreign : ∀ h ∈ given, ¬ "distributed.".toList <+: h.1

theorem sendable {fl : Float} (hf : FloatLaw fl) (s : Coordinator fl) (given : HeaderMap) (h : WellFormed s given) (d : Config fl)
    (hd : s.dist = some d) (hc : List.all (d .compression) visible = true) : Sendable s.prefixes s.exts := by
  refine ⟨?_, ?_⟩
  · simp only [Coordinator.exts, hd, List.cons_append, List.nil_append, List.map_cons, List.nodup_cons]
    refine ⟨?_, h.custom.distinct⟩
    intro hm
    obtain ⟨e, he, hee⟩ := List.mem_map.mp hm
    exact h.names e he hee
  · intro e he hr
    simp only [Coordinator.exts, hd, List.cons_append, List.nil_append, List.mem_cons] at he
    rcases he with rfl | he
    · refine ⟨prefix_plain, ?_, ?_⟩
      · simp only [ExtType.entries, List.map_map, Function.comp_def, List.map_id']
        exact keys_nodup
      · intro k v hkv
        simp only [ExtType.entries, List.mem_map, Prod.mk.injEq] at hkv
        obtain ⟨k', hk', rfl, hv⟩ := hkv
        obtain ⟨f, _, rfl⟩ := List.mem_map.mp hk'
        refine ⟨keys_plain f, ?_⟩
        simp only [distExt, ofKey_key, Option.map_some, Option.some.injEq] at hv
        subst hv
        by_cases hk : f.kind = .text
        · cases f <;> first | exact absurd hk (by decide) | exact hc
        · exact print_visible hf _ hk _
    · exact h.custom.ok e he hr

/-- Registered: the options are sent if there are any. -/
theorem registered {fl : Float} (calls : List (Call fl))
    (h : (∀ d, Call.insert d ∉ calls) ∨ ∃ d, Call.distribute d ∈ calls) (hd : (Coordinator.run calls).dist ≠ none) :
    distPrefix ∈ (Coordinator.run calls).prefixes := by
  have keep : ∀ (calls : List (Call fl)) (s : Coordinator fl), distPrefix ∈ s.prefixes →
      distPrefix ∈ (calls.foldl Coordinator.call s).prefixes := by
    intro calls
    induction calls with
    | nil => intro s h; exact h
    | cons c cs ih =>
      intro s hs
      refine ih _ ?_
      cases c with
      | ensure => simp only [Coordinator.call]; split <;> simp [hs]
      | set f v => simp only [Coordinator.call]; split <;> simp [hs]
      | sql k v =>
        simp only [Coordinator.call]
        split
        · exact hs
        · split <;> simp [hs]
      | _ => simp [Coordinator.call, hs]
  rcases h with h | ⟨d, hmem⟩
  · have : ∀ (calls : List (Call fl)) (s : Coordinator fl), (∀ d, Call.insert d ∉ calls) →
        (s.dist ≠ none → distPrefix ∈ s.prefixes) → (calls.foldl Coordinator.call s).dist ≠ none →
        distPrefix ∈ (calls.foldl Coordinator.call s).prefixes := by
      intro calls
      induction calls with
      | nil => intro s _ h; exact h
      | cons c cs ih =>
        intro s hno hs
        refine ih _ (fun d hd => hno d (List.mem_cons_of_mem _ hd)) ?_
        cases c with
        | ensure =>
          simp only [Coordinator.call]
          split
          · exact hs
          · simp
        | insert d => exact absurd (List.mem_cons_self ..) (hno d)
        | set f v =>
          simp only [Coordinator.call]
          split
          · exact hs
          · rename_i d hd; intro _; exact hs (by rw [hd]; simp)
        | sql k v =>
          simp only [Coordinator.call]
          split
          · exact hs
          · rename_i d hd
            split
            · intro _; exact hs (by rw [hd]; simp)
            · exact hs
        | batchSize n => exact hs
        | distribute d => simp [Coordinator.call]
        | extension p e => intro h; simp only [Coordinator.call] at h ⊢; exact List.mem_append_left _ (hs h)
    exact this calls {} h (by simp) hd
  · obtain ⟨a, b, rfl⟩ := List.append_of_mem hmem
    unfold Coordinator.run
    rw [List.foldl_append]
    refine keep b _ ?_
    simp [Coordinator.call]

/-! ### C64 -/

/-- **C64 (part).** Whatever calls configured the session, if the distributed options were put in by this library (by any of its calls)
rather than by DataFusion's own, then the session of every task has every distributed option with the coordinator's value, its
own index and the number of tasks of its stage. Missing: options put in with DataFusion's `with_option_extension`
(`C64_inserted_options_lost_false`), texts with characters that a header cannot carry (refused, `C64_unsendable_refused`),
and DataFusion's own options (`C64_batch_size_not_inherited_false`). -/
theorem C64_options_reach_workers_partial {fl : Float} (hf : FloatLaw fl) (calls : List (Call fl))
    (hreg : (∀ d, Call.insert d ∉ calls) ∨ ∃ d, Call.distribute d ∈ calls) (d : Config fl)
    (hd : (Coordinator.run calls).dist = some d) (hc : List.all (d .compression) visible = true)
    (given : HeaderMap) (hw : WellFormed (Coordinator.run calls) given) (i n : Nat) :
    ∃ size, taskSession (Coordinator.run calls) given (defaultBuilder fl) i n =
      .ok { batchSize := size, dist := d, taskIndex := i, taskCount := n } := by
  have hs := sendable hf _ given hw d hd hc
  have hr := registered calls hreg (by rw [hd]; simp)
  obtain ⟨conf, m, hconf, hm, rfl, _⟩ := C41_delivered_unchanged _ _ hs given given hw.accepted
  obtain ⟨conf', w, hconf', hwk, hval⟩ := C40_options_arrive_partial (distExt fl) (distExt_lawful hf) d (Config.default fl) _ _ hs hr
    (by simp [Coordinator.exts, hd, distExt])
  rw [hconf] at hconf'
  obtain rfl := Except.ok.inj hconf'
  have hwd : w = d := by
    funext f
    have h1 := (hval f.key (List.mem_map_of_mem (mem_all f))).1 (print fl f.kind (d f)) (by simp [distExt, ofKey_key])
    simp only [distExt, ofKey_key, Option.map_some, Option.some.injEq] at h1
    have h2 := congrArg (parse fl f.kind) h1
    rw [parse_print hf, parse_print hf] at h2
    exact Option.some.inj h2
  subst hwd
  have hskip := C41_options_untouched_partial (distExt fl) (Config.default fl) conf given hw.accepted (by
    intro x hx
    exact hw.foreign x hx)
  rw [hwk] at hskip
  refine ⟨if shuffleBatch (fl := fl) w ≠ 0 then shuffleBatch (fl := fl) w else 8192, ?_⟩
  unfold taskSession
  rw [hm]
  show (do let w ← workerBase fl (conf ++ given) i n; defaultBuilder fl w _) = _
  unfold workerBase
  rw [hskip]
  rfl

/-- The calls that may change an option. -/
def Touches {fl : Float} (f : Field) : Call fl → Prop
  | .set f' _ => f' = f
  | .sql key _ => key = f.key
  | .distribute _ | .insert _ => True
  | .ensure | .batchSize _ | .extension _ _ => False

/-- **C64 (part).** The last value given to an option is the one every task runs with. -/
theorem C64_last_setting_wins {fl : Float} (hf : FloatLaw fl) (before after : List (Call fl)) (f : Field) (v : f.kind.Val fl)
    (hno : ∀ d, Call.insert d ∉ before ++ .set f v :: after) (hens : Call.ensure ∈ before)
    (hafter : ∀ c ∈ after, ¬ Touches f c) (given : HeaderMap)
    (hw : WellFormed (Coordinator.run (before ++ .set f v :: after)) given)
    (hc : ∀ d, (Coordinator.run (before ++ .set f v :: after)).dist = some d → List.all (d .compression) visible = true) (i n : Nat) :
    ∃ w, taskSession (Coordinator.run (before ++ .set f v :: after)) given (defaultBuilder fl) i n = .ok w ∧ w.dist f = v := by
  -- the options are there
  have some_kept : ∀ (c : Call fl) (s : Coordinator fl), s.dist ≠ none → (s.call c).dist ≠ none := by
    intro c s hs
    cases c with
    | ensure => simp only [Coordinator.call]; split <;> simp_all
    | set f v => simp only [Coordinator.call]; split <;> simp_all
    | sql k v =>
      simp only [Coordinator.call]
      split
      · exact hs
      · split <;> simp_all
    | _ => simpa [Coordinator.call] using hs
  have hbefore : (Coordinator.run before).dist ≠ none := by
    obtain ⟨a, b, rfl⟩ := List.append_of_mem hens
    unfold Coordinator.run
    rw [List.foldl_append]
    simp only [List.foldl_cons]
    generalize List.foldl Coordinator.call {} a = s
    have h0 : (s.call Call.ensure).dist ≠ none := by
      simp only [Coordinator.call]
      split <;> simp_all
    clear hno hens hafter hw hc
    revert h0
    generalize s.call Call.ensure = s'
    induction b generalizing s' with
    | nil => exact id
    | cons c cs ih => intro h0; exact ih _ (some_kept c s' h0)
  have hset : ∃ d, ((Coordinator.run before).call (.set f v)).dist = some d ∧ d f = v := by
    rcases hd : (Coordinator.run before).dist with _ | d
    · exact absurd hd hbefore
    · exact ⟨Function.update d f v, by simp [Coordinator.call, hd], by simp⟩
  have hkeep : ∀ (cs : List (Call fl)) (s : Coordinator fl), (∀ c ∈ cs, ¬ Touches f c) → (∃ d, s.dist = some d ∧ d f = v) →
      ∃ d, (cs.foldl Coordinator.call s).dist = some d ∧ d f = v := by
    intro cs
    induction cs with
    | nil => intro s _ h; exact h
    | cons c cs ih =>
      rintro s hnt ⟨d, hd, hv⟩
      refine ih _ (fun c hc => hnt c (List.mem_cons_of_mem _ hc)) ?_
      have ht := hnt c (List.mem_cons_self ..)
      cases c with
      | ensure => exact ⟨d, by simp [Coordinator.call, hd], hv⟩
      | distribute _ => exact absurd True.intro ht
      | insert _ => exact absurd True.intro ht
      | set f' v' =>
        have hne : f ≠ f' := fun h => ht h.symm
        exact ⟨Function.update d f' v', by simp [Coordinator.call, hd], by rw [Function.update_of_ne hne]; exact hv⟩
      | sql k x =>
        simp only [Coordinator.call, hd]
        rcases ho : Field.ofKey k with _ | f'
        · simp only [distExt, ho]
          exact ⟨d, hd, hv⟩
        · have hne : f ≠ f' := by rintro rfl; exact ht (key_of_ofKey ho).symm
          rcases hp : parse fl f'.kind x with _ | y
          · simp only [distExt, ho, hp]
            exact ⟨d, hd, hv⟩
          · simp only [distExt, ho, hp]
            exact ⟨_, rfl, by rw [Function.update_of_ne hne]; exact hv⟩
      | batchSize k => exact ⟨d, hd, hv⟩
      | extension p e => exact ⟨d, hd, hv⟩
  obtain ⟨d, hd, hv⟩ : ∃ d, (Coordinator.run (before ++ .set f v :: after)).dist = some d ∧ d f = v := by
    have := hkeep after ((Coordinator.run before).call (.set f v)) hafter hset
    simpa [Coordinator.run, List.foldl_append] using this
  obtain ⟨size, hts⟩ := C64_options_reach_workers_partial hf _ (.inl hno) d hd (hc d hd) given hw i n
  exact ⟨_, hts, hv⟩

/-- **C64.** Worker-executed stages use the shuffle batch size when it is set. When it is not, they use DataFusion's default, whatever
the coordinator's batch size is. -/
theorem C64_batch_size {fl : Float} (s : Coordinator fl) (given : HeaderMap) (i n : Nat) (w : Worker fl)
    (h : taskSession s given (defaultBuilder fl) i n = .ok w) :
    (shuffleBatch w.dist ≠ 0 → w.batchSize = shuffleBatch w.dist) ∧ (shuffleBatch w.dist = 0 → w.batchSize = 8192) := by
  unfold taskSession at h
  rcases hh : taskHeaders s.prefixes s.exts given with e | m
  · rw [hh] at h; cases h
  · rw [hh] at h
    replace h : (do let w ← workerBase fl m i n; defaultBuilder fl w m) = .ok w := h
    unfold workerBase at h
    rcases hd : fromHeaders (distExt fl) (Config.default fl) m with e | d
    · rw [hd] at h; cases h
    · rw [hd] at h
      obtain rfl := Except.ok.inj h
      exact ⟨fun hx => if_pos hx, fun hx => if_neg (by rw [hx]; simp)⟩

/-- **C64 is false for texts that are no header values**, but not silently: the query is refused. -/
theorem C64_unsendable_refused {fl : Float} (s : Coordinator fl) (hr : distPrefix ∈ s.prefixes) (d : Config fl)
    (hd : s.dist = some d) (hc : List.all (d .compression) visible = false) (given : HeaderMap) (b : Builder fl) (i n : Nat) :
    ∃ e, taskSession s given b i n = .error e := by
  have hent : ∀ (es : Entries) (k v : Str), (k, some v) ∈ es → v.all visible = false → ∀ (p : Str) (m : HeaderMap),
      ∃ e, addEntries p es m = .error e := by
    intro es k v hm hv p
    induction es with
    | nil => cases hm
    | cons a t ih =>
      intro m
      obtain ⟨k', v'⟩ := a
      cases v' with
      | none =>
        simp only [addEntries]
        refine ih ?_ m
        simpa using hm
      | some v' =>
        simp only [addEntries]
        rcases hn : headerName (configPrefix ++ (p ++ '.' :: k')) with e | name
        · exact ⟨e, rfl⟩
        · rcases hx : headerValue v' with e | value
          · exact ⟨e, rfl⟩
          · have : (k, some v) ∈ t := by
              rcases List.mem_cons.mp hm with h | h
              · obtain ⟨rfl, h2⟩ := Prod.mk.inj h
                obtain rfl := Option.some.inj h2
                simp [headerValue, hv] at hx
              · exact h
            exact ih this _
  have hmem : (Field.key .compression, some (d .compression : Str)) ∈ (distExt fl).entries d := by
    refine List.mem_map.mpr ⟨Field.key .compression, List.mem_map_of_mem (mem_all _), ?_⟩
    simp only [distExt, ofKey_key, Option.map_some]
    rfl
  obtain ⟨e, he⟩ := hent _ _ _ hmem hc distPrefix []
  have hh : taskHeaders s.prefixes s.exts given = .error e := by
    unfold taskHeaders propagationHeaders
    rw [if_neg (by
      intro hemp
      rw [List.isEmpty_iff] at hemp
      rw [hemp] at hr
      cases hr)]
    simp only [Coordinator.exts, hd, List.cons_append, List.nil_append, addExtensions, List.contains_iff_mem, hr, if_true, he]
    rfl
  refine ⟨e, ?_⟩
  unfold taskSession
  rw [hh]
  rfl

/-- **C64.** The compression chosen with `with_distributed_compression` is the one every worker uses. -/
theorem C64_compression {fl : Float} (w : Worker fl) (c : Option Codec) (h : w.dist .compression = compressionSetting c) :
    w.codec = .ok c := by
  unfold Worker.codec
  rw [h]
  rcases c with _ | _ | _ <;> decide +kernel

/-! ### What does not reach the workers -/

/-- **C64 is false for options put in with DataFusion's own call.** Whatever they are, the workers use the defaults, although the
coordinator plans with the given ones. -/
theorem C64_inserted_options_lost_false {fl : Float} (d : Config fl) (i n : Nat) :
    (Coordinator.run [.insert d, .ensure]).dist = some d ∧
    taskSession (Coordinator.run [.insert d, .ensure]) [] (defaultBuilder fl) i n =
      .ok { batchSize := 8192, dist := Config.default fl, taskIndex := i, taskCount := n } := ⟨rfl, rfl⟩

/-- A stand-in for `f64` for examples. -/
def unitFloat : Float := { F := Unit, print := fun _ => "1".toList, parse := fun _ => some (), one := () }

theorem unitFloat_law : FloatLaw unitFloat := ⟨fun _ => rfl, fun _ => by show List.all "1".toList visible = true; decide +kernel⟩

/-- no other extensions, no passthrough headers -/
theorem plain_wellFormed {fl : Float} (s : Coordinator fl) (h : s.custom = []) : WellFormed s [] :=
  ⟨by rw [h]; exact ⟨List.nodup_nil, by simp⟩, by rw [h]; simp, rfl, by simp⟩

/-- **The documentation of `shuffle_batch_size` is wrong**: with 0 "inherit `datafusion.execution.batch_size`" is claimed; a session with
batch size 100 has its stages executed with 8192. -/
theorem C64_batch_size_not_inherited_false :
    ¬ ∀ (fl : Float), FloatLaw fl → ∀ (calls : List (Call fl)) (w : Worker fl),
      taskSession (Coordinator.run calls) [] (defaultBuilder fl) 0 1 = .ok w →
      shuffleBatch w.dist = 0 → w.batchSize = (Coordinator.run calls).batchSize := by
  intro h
  obtain ⟨size, hs⟩ := C64_options_reach_workers_partial unitFloat_law [.ensure, .batchSize 100] (.inl (by simp))
    (Config.default unitFloat) rfl (by decide +kernel) [] (plain_wellFormed _ rfl) 0 1
  have h1 := h unitFloat unitFloat_law _ _ hs rfl
  have h2 := (C64_batch_size _ _ _ _ _ hs).2 rfl
  rw [h1] at h2
  cases h2

/-- a session with a worker resolver, a task limit set by a call, then by SQL, and compression switched off: the hypotheses of
`C64_options_reach_workers_partial` and `C64_last_setting_wins` are met -/
example : ∃ w : Worker unitFloat,
    taskSession (Coordinator.run [.ensure, .set .maxTasksPerStage (3 : Fin (2 ^ 64)), .batchSize 100,
      .set .compression "none".toList, .sql "max_tasks_per_stage".toList "12".toList]) [] (defaultBuilder unitFloat) 1 4 = .ok w ∧
    w.dist .compression = "none".toList :=
  C64_last_setting_wins unitFloat_law [.ensure, .set .maxTasksPerStage (3 : Fin (2 ^ 64)), .batchSize 100]
    [.sql "max_tasks_per_stage".toList "12".toList] .compression "none".toList (by simp) (by simp)
    (by
      intro c hc
      obtain rfl := List.mem_singleton.mp hc
      show ¬ ("max_tasks_per_stage".toList = "compression".toList)
      decide +kernel) [] (plain_wellFormed _ rfl)
    (by
      intro d hd
      have : d .compression = "none".toList := by
        obtain rfl := Option.some.inj hd
        rfl
      rw [this]
      decide +kernel) 1 4

/-- a number in an SQL statement is read as a number, and garbage is refused -/
example : ((parseUsize "12".toList).map Fin.val, (parseUsize "-12".toList).map Fin.val, (parseUsize "18446744073709551616".toList).map Fin.val) =
    (some 12, none, none) := by decide +kernel

end DD.Session
