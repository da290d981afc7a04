/-
**C94** Statements that write.
-/
import Verif.Spec.Sink
import Verif.Spec.Shape
import Verif.Props.Head

namespace DD.Tree

variable {Row : Type} {env : Env Row} {S : Op Row → Prop}

/-! ### The passes put in no operators -/

theorem Free.kids {k : Kind Row} {tc cs} (h : Free S (.node k tc cs)) : ∀ c ∈ cs, Free S c := by
  cases h with
  | node _ h => exact h

theorem Free.plain {k : Kind Row} (hk : ∀ g red, k ≠ .op g red) {tc cs} (h : ∀ c ∈ cs, Free S c) : Free S (.node k tc cs) :=
  .node (fun g red e => absurd e (hk g red)) h

theorem Free.same {k : Kind Row} {tc tc' cs cs'} (h : Free S (.node k tc cs)) (h' : ∀ c ∈ cs', Free S c) :
    Free S (.node k tc' cs') := by
  cases h with
  | node hk _ => exact .node hk h'

theorem Free.withTc {p : Plan Row} (h : Free S p) (t : TaskCount) : Free S (p.withTc t) := by
  cases p with
  | node k tc cs => exact h.same h.kids

theorem Free.one {k : Kind Row} (hk : ∀ g red, k ≠ .op g red) {tc} {c : Plan Row} (h : Free S c) : Free S (.node k tc [c]) :=
  .plain hk (by simpa using h)

theorem Free.strip {p : Plan Row} (h : Free S p) : Free S (strip p) := by
  unfold DD.Tree.strip
  split
  · split
    · exact h.kids _ (by simp)
    · exact h
  · exact h

theorem Free.stripCoalesce {p : Plan Row} (h : Free S p) : Free S (stripCoalesce p) := by
  unfold DD.Tree.stripCoalesce
  split
  · exact h.kids _ (by simp)
  · exact h

theorem mem_of_inv {f : Plan Row → Plan Row → Prop} {cs cs' : List (Plan Row)}
    (h : ∀ (i : Nat) c', cs'[i]? = some c' → ∃ c, cs[i]? = some c ∧ f c c') {c'} (hc : c' ∈ cs') : ∃ c ∈ cs, f c c' := by
  obtain ⟨i, hi⟩ := List.mem_iff_getElem?.mp hc
  obtain ⟨c, h1, h2⟩ := h i c' hi
  exact ⟨c, List.mem_of_getElem? h1, h2⟩

theorem Free.normalize {p : Plan Row} (h : Free S p) : ∀ {p'}, normalize env p = .ok p' → Free S p' := by
  induction h with
  | @node k tc cs hk hcs ih =>
    intro p' hp
    obtain ⟨cs', h1, h2, h3⟩ := normalize_inv hp
    have hcs' : ∀ c ∈ cs', Free S c := fun c hc => by
      obtain ⟨c0, m, e⟩ := mem_of_inv h2 hc
      exact ih c0 m e
    have hsame : Free S (.node k tc cs') := .node hk hcs'
    unfold normalizeNode at h3
    split at h3
    · rename_i l r
      split at h3
      · split at h3
        · cases h3
        · cases h3
          refine .plain (fun _ _ e => by cases e) ?_
          simp only [List.mem_cons, List.not_mem_nil, or_false, forall_eq_or_imp, forall_eq]
          exact ⟨.one (fun _ _ e => by cases e) (hcs' l (by simp)).stripCoalesce,
            .one (fun _ _ e => by cases e) (hcs' r (by simp))⟩
      · cases h3; exact hsame
    · rename_i l r
      split at h3
      · cases h3
        refine .plain (fun _ _ e => by cases e) ?_
        simp only [List.mem_cons, List.not_mem_nil, or_false, forall_eq_or_imp, forall_eq]
        exact ⟨hcs' r (by simp), (hcs' l (by simp)).stripCoalesce⟩
      · cases h3; exact hsame
    · cases h3; exact hsame

theorem Free.insertBroadcast {p : Plan Row} (h : Free S p) : Free S (insertBroadcast p) := by
  induction h with
  | @node k tc cs hk hcs ih =>
    rw [DD.Tree.insertBroadcast, insertBroadcastAll_eq]
    have hm : ∀ c ∈ cs.map DD.Tree.insertBroadcast, Free S c := by
      intro c hc
      obtain ⟨c0, m, rfl⟩ := List.mem_map.mp hc
      exact ih c0 m
    split
    · rename_i b rest e
      rw [e] at hm
      have hb := hm b (by simp)
      refine .node hk ?_
      split
      · intro c hc
        rcases List.mem_cons.mp hc with rfl | hc
        · unfold broadcastBuild
          split
          · exact .one (fun _ _ e => by cases e) (.one (fun _ _ e => by cases e) (hb.kids _ (by simp)))
          · exact .one (fun _ _ e => by cases e) (.one (fun _ _ e => by cases e) hb)
        · exact hm c (by simp [hc])
      · exact hm
    · exact .node hk (by simp)

theorem Free.isolateUnions {p : Plan Row} (h : Free S p) : ∀ {p'}, isolateUnions p = .ok p' → Free S p' := by
  induction h with
  | @node k tc cs hk hcs ih =>
    intro p' hp
    obtain ⟨cs', _, h2, h3⟩ := isolateUnions_inv hp
    have hcs' : ∀ c ∈ cs', Free S c := fun c hc => by
      obtain ⟨c0, m, e⟩ := mem_of_inv h2 hc
      exact ih c0 m e
    rcases h3 with ⟨_, rfl⟩ | ⟨_, ws, m, rfl⟩
    · exact .node hk hcs'
    · exact .plain (fun _ _ e => by cases e) hcs'

theorem propagateEach_mem : ∀ {cs cs' : List (Plan Row)} {ts : List TaskCount}, propagateEach env cs ts = .ok cs' →
    ∀ c' ∈ cs', ∃ c ∈ cs, ∃ t, propagate env c t = .ok c'
  | [], cs', ts, h => by rw [propagateEach] at h; cases h; simp
  | c :: cs, cs', [], h => by rw [propagateEach] at h; cases h; simp
  | c :: cs, cs', t :: ts, h => by
    rw [propagateEach] at h
    obtain ⟨c1, h1, h⟩ := bind_ok h
    obtain ⟨cs1, h2, h⟩ := bind_ok h
    cases h
    intro x hx
    rcases List.mem_cons.mp hx with rfl | hx
    · exact ⟨c, by simp, t, h1⟩
    · obtain ⟨y, m, t', e⟩ := propagateEach_mem h2 x hx
      exact ⟨y, by simp [m], t', e⟩

theorem Free.propagate (hs : ScalesFree S env) {p : Plan Row} (h : Free S p) :
    ∀ {t p'}, propagate env p t = .ok p' → Free S p' := by
  induction h with
  | @node k tc cs hk hcs ih =>
    intro t p' hp
    have hp0 : Free S (.node k tc cs) := .node hk hcs
    rw [DD.Tree.propagate.eq_def] at hp
    simp only at hp
    split at hp
    · split at hp
      · cases hp; exact .node hk hcs
      · cases hp
      · rename_i q e
        cases hp
        exact (hs _ _ _ hp0 e).withTc t
    · split at hp
      · cases hp; exact .node hk hcs
      · have hall : ∀ {cs'} {ts : List TaskCount}, propagateEach env cs ts = .ok cs' → ∀ c ∈ cs', Free S c := by
          intro cs' ts e c hc
          obtain ⟨c0, m, t', e'⟩ := propagateEach_mem e c hc
          exact ih c0 m e'
        split at hp
        · obtain ⟨n, h1, hp⟩ := bind_ok hp
          obtain ⟨cs', h2, hp⟩ := bind_ok hp
          obtain ⟨n', h3, hp⟩ := bind_ok hp
          cases hp
          exact .plain (fun _ _ e => by cases e) (hall h2)
        · obtain ⟨cs', h2, hp⟩ := bind_ok hp
          cases hp
          exact .node hk (hall h2)

theorem Free.build (hs : ScalesFree S env) {o q c : Plan Row} {t} (h : Free S q) (hb : build env o q = .ok (c, t)) : Free S c := by
  unfold DD.Tree.build at hb
  obtain ⟨t', _, hb⟩ := bind_ok hb
  obtain ⟨c', h2, hb⟩ := bind_ok hb
  cases hb
  exact h.propagate hs h2

theorem Free.wrap (hs : ScalesFree S env) {par} {o q p' : Plan Row} (h : Free S q) (hw : wrap env par o q = .ok p') : Free S p' := by
  unfold DD.Tree.wrap at hw
  split at hw
  · obtain ⟨⟨c, t⟩, h1, hw⟩ := bind_ok hw
    cases hw
    exact .one (fun _ _ e => by cases e) (h.build hs h1)
  · obtain ⟨⟨c, t⟩, h1, hw⟩ := bind_ok hw
    cases hw
    exact .one (fun _ _ e => by cases e) (h.build hs h1)
  · obtain ⟨⟨c, t⟩, h1, hw⟩ := bind_ok hw
    obtain ⟨e, _, hw⟩ := bind_ok hw
    cases hw
    exact .one (fun _ _ e => by cases e) (h.build hs h1)
  · exact h.propagate hs hw
  · cases hw; exact h

theorem Free.inject (hs : ScalesFree S env) {p : Plan Row} (h : Free S p) :
    ∀ {par p'}, inject env par p = .ok p' → Free S p' := by
  induction h with
  | @node k tc cs hk hcs ih =>
    intro par p' hp
    obtain ⟨cs', d, h1, h2, h3⟩ := inject_inv hp
    refine Free.wrap hs (.node hk fun c hc => ?_) h3
    obtain ⟨c0, m, e⟩ := mem_of_inv (injectAll_inv h1).2 hc
    exact ih c0 m e

theorem Free.prepare {keep : Bool} {p : Plan Row} (h : Free S p) :
    ∀ {t id p' id'}, prepare keep p t id = .ok (p', id') → Free S p' := by
  induction h with
  | @node k tc cs hk hcs ih =>
    intro t id p' id' hp
    obtain ⟨cs', id1, h0, h1, h2, h3⟩ := prepare_inv hp
    have hcs' : ∀ c ∈ cs', Free S c := fun c hc => by
      obtain ⟨i, hi⟩ := List.mem_iff_getElem?.mp hc
      obtain ⟨c0, a, b, e1, e2⟩ := h2 i c hi
      exact ih c0 (List.mem_of_getElem? e1) e2
    cases cs' with
    | nil => unfold prepareNode at h3; cases h3; exact .node hk hcs'
    | cons c rest =>
      unfold prepareNode at h3
      simp only at h3
      split at h3
      · cases h3; exact .node hk hcs'
      · rename_i hn
        split at h3
        · cases h3; exact hcs' _ (List.mem_cons_self ..)
        · obtain ⟨c1, h4, h3⟩ := bind_ok h3
          cases h3
          have hn' : k.isNet = true := by simpa using hn
          refine .one ?_ ?_
          · intro g red e
            cases k <;> first | (cases hn'; done) | (cases e; done)
          · have hc := (hcs' c (by simp)).strip
            unfold Head.insert at h4
            split at h4
            · cases h4; exact hc
            · obtain ⟨b, _, h4⟩ := bind_ok h4
              cases h4
              exact .one (fun _ _ e => by cases e) hc
            · cases h4
              exact .one (fun _ _ e => by cases e) hc

theorem Free.partialReduce {p : Plan Row} (h : Free S p) : Free S (partialReduce p) := by
  induction h with
  | @node k tc cs hk hcs ih =>
    rw [DD.Tree.partialReduce, partialReduceAll_eq]
    have hm : ∀ c ∈ cs.map DD.Tree.partialReduce, Free S c := by
      intro c hc
      obtain ⟨c0, m, rfl⟩ := List.mem_map.mp hc
      exact ih c0 m
    generalize cs.map DD.Tree.partialReduce = cs' at hm
    unfold reduceNode
    split
    · rename_i h n o rt g r ot ys _
      refine .node hk ?_
      have hx := hm _ (List.mem_singleton.mpr rfl)
      simp only [List.mem_cons, List.not_mem_nil, or_false, forall_eq]
      refine .node ?_ (by simpa using hx)
      rintro g' red' ⟨⟩
      have hg := hx.kids _ (List.mem_singleton.mpr rfl)
      cases hg with
      | node hg _ => exact ⟨(hg _ _ rfl).2 _ rfl, by rintro r ⟨⟩⟩
    · exact .node hk hm

theorem Free.sample (hS : ∀ g red, (samplerKind : Kind Row) = .op g red → ¬ S g) {p : Plan Row} (h : Free S p) :
    Free S (sample p) := by
  induction h with
  | @node k tc cs hk hcs ih =>
    rw [DD.Tree.sample, sampleAll_eq]
    have hm : ∀ c ∈ cs.map DD.Tree.sample, Free S c := by
      intro c hc
      obtain ⟨c0, m, rfl⟩ := List.mem_map.mp hc
      exact ih c0 m
    refine .node hk ?_
    split
    · intro c hc
      obtain ⟨c0, m, rfl⟩ := List.mem_map.mp hc
      have h0 := hm c0 m
      rcases insertSampler_cases c0 with e | ⟨k', tc', x, hh, rfl, e⟩
      · rw [e]; exact h0
      · rw [e]
        refine h0.same ?_
        simp only [List.mem_cons, List.not_mem_nil, or_false, forall_eq]
        refine .node ?_ (by simpa using h0.kids x (by simp))
        intro g red e
        refine ⟨hS g red e, ?_⟩
        cases e
        rintro r ⟨⟩
    · exact hm

theorem Free.at {p : Plan Row} (h : Free S p) {T t x} (hx : At T p t x) : ∀ g red, x.kind = .op g red → ¬ S g := by
  induction hx with
  | root =>
    cases h with
    | node hk _ => exact fun g red e => (hk g red e).1
  | child e _ ih => exact ih (h.kids _ (List.mem_of_getElem? e))

theorem free_false : ∀ p : Plan Row, Free (fun _ => False) p
  | .node _ _ cs => .node (fun _ _ _ => ⟨id, fun _ _ => id⟩) fun c _ => free_false c

/-! ### The root stays at the root -/

theorem normalize_writing {g : Op Row} {c p1 : Plan Row} (h : normalize env (writing g c) = .ok p1) :
    ∃ c1, normalize env c = .ok c1 ∧ p1 = writing g c1 := by
  obtain ⟨cs', h1, h2, h3⟩ := normalize_inv h
  obtain ⟨c1, rfl⟩ := List.length_eq_one_iff.mp (h1.trans rfl)
  obtain ⟨c0, e1, e2⟩ := h2 0 c1 rfl
  cases e1
  unfold normalizeNode at h3
  cases h3
  exact ⟨c1, e2, rfl⟩

theorem writing_parts (g : Op Row) (c : Plan Row) : (writing g c).parts = c.parts := getD_runAll [c] 0 c rfl

theorem preparePlan_writing {g : Op Row} {c p1 : Plan Row} (hone : ∀ c1, normalize env c = .ok c1 → c1.parts = 1)
    (h : preparePlan env (writing g c) = .ok p1) : ∃ c1, (Free S c → Free S c1) ∧ p1 = writing g c1 := by
  unfold preparePlan at h
  obtain ⟨p0, h0, h⟩ := bind_ok h
  obtain ⟨c0, e0, rfl⟩ := normalize_writing h0
  have hp : ¬ (writing g c0).parts > 1 := by rw [writing_parts, hone c0 e0]; omega
  simp only [if_neg hp] at h
  have hb : insertBroadcast (writing g c0) = writing g (insertBroadcast c0) := by
    unfold writing fresh
    rw [insertBroadcast, insertBroadcastAll_eq]
    rfl
  have hi : ∀ {c0 : Plan Row}, isolateUnions (writing g c0) = .ok p1 → ∃ c1, isolateUnions c0 = .ok c1 ∧ p1 = writing g c1 := by
    intro c0 h
    obtain ⟨cs', h1, h2, h3⟩ := isolateUnions_inv h
    obtain ⟨c1, rfl⟩ := List.length_eq_one_iff.mp (h1.trans rfl)
    obtain ⟨x, e1, e2⟩ := h2 0 c1 rfl
    cases e1
    rcases h3 with ⟨_, rfl⟩ | ⟨e, _⟩
    · exact ⟨c1, e2, rfl⟩
    · cases e
  cases hbj : env.broadcastJoins <;> cases hiu : env.isolateUnions <;>
    simp only [hbj, hiu, if_true, if_false, Bool.false_eq_true] at h
  · cases h
    exact ⟨c0, fun f => f.normalize e0, rfl⟩
  · obtain ⟨c1, e1, rfl⟩ := hi h
    exact ⟨c1, fun f => (f.normalize e0).isolateUnions e1, rfl⟩
  · cases h
    exact ⟨_, fun f => (f.normalize e0).insertBroadcast, hb⟩
  · rw [hb] at h
    obtain ⟨c1, e1, rfl⟩ := hi h
    exact ⟨c1, fun f => (f.normalize e0).insertBroadcast.isolateUnions e1, rfl⟩

theorem inject_writing (hs : ScalesFree S env) {g : Op Row} {c p1 : Plan Row} (h : inject env .root (writing g c) = .ok p1) :
    ∃ tc c1, (Free S c → Free S c1) ∧ p1 = .node (.op g none) tc [c1] := by
  obtain ⟨cs', d, h1, h2, h3⟩ := inject_inv h
  obtain ⟨l, i⟩ := injectAll_inv h1
  obtain ⟨c0, rfl⟩ := List.length_eq_one_iff.mp (l.trans rfl)
  obtain ⟨x, e1, e2⟩ := i 0 c0 rfl
  cases e1
  unfold wrap at h3
  simp only [Plan.kind] at h3
  obtain ⟨cs2, rfl, l2, i2⟩ := propagate_inv rfl (fun _ _ e => by cases e) (by simp) h3
  obtain ⟨c1, rfl⟩ := List.length_eq_one_iff.mp (l2.trans rfl)
  obtain ⟨y, e3, e4⟩ := i2 0 c1 rfl
  cases e3
  exact ⟨_, c1, fun f => (f.inject hs e2).propagate hs e4, rfl⟩

theorem prepare_writing {keep : Bool} {g : Op Row} {tc} {c p1 : Plan Row} {t id id'}
    (h : prepare keep (.node (.op g none) tc [c]) t id = .ok (p1, id')) :
    ∃ c1, (Free S c → Free S c1) ∧ p1 = .node (.op g none) tc [c1] := by
  obtain ⟨cs', id1, h0, h1, h2, h3⟩ := prepare_inv h
  obtain ⟨c1, rfl⟩ := List.length_eq_one_iff.mp (h1.trans rfl)
  obtain ⟨x, a, b, e1, e2⟩ := h2 0 c1 rfl
  cases e1
  unfold prepareNode at h3
  cases h3
  exact ⟨c1, fun f => f.prepare e2, rfl⟩

/-- Planning keeps the operator at the root, and puts no operator of the sort `S` below it. -/
theorem plan_writing (hs : ScalesFree S env) {g : Op Row} {c p' : Plan Row}
    (hone : ∀ c1, normalize env c = .ok c1 → c1.parts = 1) (hp : plan env (writing g c) = .ok (some p')) :
    ∃ tc c', (Free S c → Free S c') ∧ p' = .node (.op g none) tc [c'] := by
  unfold plan at hp
  obtain ⟨q, hq, hp⟩ := bind_ok hp
  obtain ⟨r, h4, hp⟩ := bind_ok hp
  obtain ⟨⟨q', id⟩, h5, hp⟩ := bind_ok hp
  obtain ⟨c1, f1, rfl⟩ := preparePlan_writing (S := S) hone hq
  obtain ⟨tc, c2, f2, rfl⟩ := inject_writing hs h4
  obtain ⟨c3, f3, rfl⟩ := prepare_writing (S := S) h5
  simp only at hp
  split at hp
  · cases hp
  · have h6 := Option.some.inj (Except.ok.inj hp)
    subst h6
    split
    · rw [partialReduce_plain rfl]
      exact ⟨tc, _, fun f => (f3 (f2 (f1 f))).partialReduce, rfl⟩
    · exact ⟨tc, c3, fun f => f3 (f2 (f1 f)), rfl⟩

theorem dynamic_writing (hs : ScalesFree S env) (hS : ∀ g red, (samplerKind : Kind Row) = .op g red → ¬ S g)
    {g : Op Row} {c p' : Plan Row} (hone : ∀ c1, normalize env c = .ok c1 → c1.parts = 1)
    (hp : dynamicPlan env (writing g c) = .ok p') :
    ∃ tc c', (Free S c → Free S c') ∧ p' = .node (.op g none) tc [c'] := by
  obtain ⟨p1, p2, id, h1, h2, h3⟩ := dynamic_steps hp
  obtain ⟨c1, f1, rfl⟩ := preparePlan_writing (S := S) hone h1
  obtain ⟨tc, c2, f2, rfl⟩ := inject_writing hs h2
  rw [sample_plain rfl] at h3
  obtain ⟨c3, f3, rfl⟩ := prepare_writing (S := S) h3
  exact ⟨tc, c3, fun f => f3 ((f2 (f1 f)).sample hS), rfl⟩

theorem written_eq {g : Op Row} (hw : Writes g) (red tc) (c : Plan Row) :
    distributed (.node (.op g red) tc [c]) = written (.node (.op g red) tc [c]) := by
  unfold distributed written
  rw [run_node]
  exact hw.exec _ _ _ _

theorem answer_writing {g : Op Row} (hw : Writes g) (c : Plan Row) : Answer (writing g c) = Answer c :=
  answer_pass (k := .op g none) (fun ds d => hw.may ds d) _ _ _

theorem Writes.whole {g : Op Row} (hw : Writes g) : Whole [.perm] .perm g := by
  intro as bs x h hx
  obtain ⟨a, b, rfl, rfl, e⟩ := SameInputs.one h
  rw [hw.may] at hx
  subst hx
  exact ⟨b, (hw.may _ _).mpr rfl, e⟩

theorem writing_root {g : Op Row} (hw : Writes g) {c : Plan Row} (ht : Top env .pre c .perm)
    (hh : ∀ c1, normalize env c = .ok c1 → HeadOk c1) : AnyRoot env (writing g c) .perm := by
  refine .inr ⟨.op hw.whole (by rintro r ⟨⟩) ht, fun p1 h1 => ?_⟩
  obtain ⟨c1, e, rfl⟩ := normalize_writing h1
  exact .op (by simp) (by simpa using hh c1 e)

/-! ### **C94** -/

/-- **C94** Of a statement that writes, the node that writes stays at the root of the head stage, which the coordinator executes once;
no node that writes is in any other place, of this stage or of those the workers execute. `S` are the operators that write; the query `c`
has none, and has one partition, as `DataSinkExec` asks for. -/
theorem C94_only_the_coordinator_writes (hs : ScalesFree S env) {g : Op Row} {c p' : Plan Row} (hc : Free S c)
    (hone : ∀ c1, normalize env c = .ok c1 → c1.parts = 1) (hp : plan env (writing g c) = .ok (some p')) :
    ∃ tc c', p' = .node (.op g none) tc [c'] ∧ ∀ T t x, At T c' t x → ∀ g' red, x.kind = .op g' red → ¬ S g' := by
  obtain ⟨tc, c', f, rfl⟩ := plan_writing hs hone hp
  exact ⟨tc, c', rfl, fun T t x hx => (f hc).at hx⟩

/-- **C94** The same if task counts are chosen while the statement runs, whatever the stages cost. -/
theorem C94_only_the_coordinator_writes_dynamic (hs : ScalesFree S env)
    (hS : ∀ g red, (samplerKind : Kind Row) = .op g red → ¬ S g) {g : Op Row} {c p' : Plan Row} (hc : Free S c)
    (hone : ∀ c1, normalize env c = .ok c1 → c1.parts = 1) (cpu : Plan Row → Plan Row → Except Err (Option Nat)) (bytes : Nat)
    (hp : dynamicPlan (env.costing cpu bytes) (writing g c) = .ok p') :
    ∃ tc c', p' = .node (.op g none) tc [c'] ∧ ∀ T t x, At T c' t x → ∀ g' red, x.kind = .op g' red → ¬ S g' := by
  obtain ⟨tc, c', f, rfl⟩ := dynamic_writing (env := env.costing cpu bytes) hs hS (by rwa [normalize_costing]) hp
  exact ⟨tc, c', rfl, fun T t x hx => (f hc).at hx⟩

/-- **C94** What is written are the rows of one of the answers of the query, each as often as it is in the answer. Missing: queries
`C08_ungathered_root_partial` misses. -/
theorem C94_written_rows_partial (he : EnvOk env) (hr : CoordinatorReads env) {g : Op Row} (hw : Writes g) {c p' : Plan Row}
    (ht : Top env .pre c .perm) (hh : ∀ c1, normalize env c = .ok c1 → HeadOk c1) (hp : plan env (writing g c) = .ok (some p')) :
    ∃ d, Answer c d ∧ (written p').Perm d := by
  obtain ⟨tc, c', _, rfl⟩ := plan_writing (S := fun _ => False) (fun _ _ p' _ _ => free_false p')
    (fun c1 h => (ht.normalize he c1 h).1.parts) hp
  have h := (C08_ungathered_root_partial he hr (writing_root hw ht hh) hp).2
  rwa [answer_writing hw, written_eq hw] at h

/-- **C94** The same if task counts are chosen while the statement runs, whatever the stages cost. -/
theorem C94_written_rows_dynamic_partial (he : EnvOk env) (hr : CoordinatorReads env) {g : Op Row} (hw : Writes g) {c p' : Plan Row}
    (ht : Top env .pre c .perm) (hh : ∀ c1, normalize env c = .ok c1 → HeadOk c1)
    (cpu : Plan Row → Plan Row → Except Err (Option Nat)) (bytes : Nat)
    (hp : dynamicPlan (env.costing cpu bytes) (writing g c) = .ok p') :
    ∃ d, Answer c d ∧ (written p').Perm d := by
  obtain ⟨tc, c', _, rfl⟩ := dynamic_writing (env := env.costing cpu bytes) (S := fun _ => False) (fun _ _ p' _ _ => free_false p')
    (fun _ _ _ h => h) (fun c1 h => (ht.normalize he c1 (by rwa [normalize_costing] at h)).1.parts) hp
  have h := (C58_ungathered_root_partial he hr (writing_root hw ht hh) cpu bytes hp).2
  rwa [answer_writing hw, written_eq hw] at h

/-- **C94** A query with only one answer: what is written is what is written on a single node, and so is the number of rows that is
returned. -/
theorem C94_same_as_single_node_partial (he : EnvOk env) (hr : CoordinatorReads env) {g : Op Row} (hw : Writes g) {c p' : Plan Row}
    (ht : Top env .pre c .perm) (hh : ∀ c1, normalize env c = .ok c1 → HeadOk c1) (hone : OneAnswer c)
    (hp : plan env (writing g c) = .ok (some p')) :
    (written p').Perm (written (writing g c)) ∧ (written p').length = (written (writing g c)).length := by
  have h1 := (C08_ungathered_root_eq_single_node_partial he hr (writing_root hw ht hh)
    (by unfold OneAnswer; rw [answer_writing hw]; exact hone) hp).2
  obtain ⟨tc, c', _, rfl⟩ := plan_writing (S := fun _ => False) (fun _ _ p' _ _ => free_false p')
    (fun c1 h => (ht.normalize he c1 h).1.parts) hp
  rw [written_eq hw] at h1
  have h2 : singleNode (writing g c) = written (writing g c) := by
    have : (run (writing g c)).parts = 1 := (writing_parts g c).trans ht.parts
    unfold singleNode Ran.rows
    rw [this]
    simp only [List.range_one, List.flatMap_cons, List.flatMap_nil, List.append_nil]
    exact written_eq hw _ _ _
  rw [h2] at h1
  exact ⟨h1, h1.length_eq⟩

namespace Demo

/-- A sink that asks for an order of its input. -/
def sinkOp : Op (Nat × Nat) where
  exec := fun _ _ _ as => as.getD 0 []
  may := fun as x => x = as.getD 0 []
  ok := fun _ _ _ _ => rfl
  needs := fun _ => some fun _ _ => true

theorem sinkOp_writes : Writes sinkOp := ⟨fun _ _ _ _ => rfl, fun _ _ => Iff.rfl⟩

/-- Here the operators that write are those that ask for an order. -/
def AsksOrder (g : Op (Nat × Nat)) : Prop := (g.needs 0).isSome = true

/-- `INSERT INTO t SELECT ... FROM small JOIN big WHERE ...`: what is written. -/
def rowsToWrite : Plan (Nat × Nat) := fresh (.coalesce none) [input]

theorem rowsToWrite_norm : normalize sess rowsToWrite = .ok rowsToWrite := by rfl

theorem rowsToWrite_free : Free AsksOrder rowsToWrite := by
  have leaf : ∀ (ps : List (List (Nat × Nat))) tc, Free AsksOrder (.node (.leaf ps) tc []) :=
    fun ps tc => .plain (fun _ _ e => by cases e) (by simp)
  refine .one (fun _ _ e => by cases e) (.node ?_ ?_)
  · rintro g red ⟨⟩
    exact ⟨(by intro h; cases h), (by rintro r ⟨⟩)⟩
  · simp only [List.mem_cons, List.not_mem_nil, or_false, forall_eq]
    refine .plain (fun _ _ e => by cases e) ?_
    simp only [List.mem_cons, List.not_mem_nil, or_false, forall_eq_or_imp, forall_eq]
    exact ⟨.one (fun _ _ e => by cases e) (leaf _ _), leaf _ _⟩

theorem sess_scalesFree : ScalesFree AsksOrder sess := by
  intro p T p' _ h
  obtain ⟨k, tc, cs⟩ := p
  cases k <;> simp only [sess] at h <;> cases h
  · exact .plain (fun _ _ e => by cases e) (by simp)

theorem rowsToWrite_top : Top sess .pre rowsToWrite .perm :=
  .src (d := none) (ga := true) (.gather (.inl rfl) (by rintro _ _ ⟨⟩) (fun _ => ⟨by rintro _ _ _ ⟨⟩, by rintro _ ⟨⟩⟩) (by simp) input_src)

end Demo

/-- Non-vacuity: the statement is distributed, and writes the rows that are written on a single node. -/
example : ∃ p', plan Demo.sess (writing Demo.sinkOp Demo.rowsToWrite) = .ok (some p')
    ∧ (∃ tc c', p' = .node (.op Demo.sinkOp none) tc [c']
      ∧ ∀ T t x, At T c' t x → ∀ g' red, x.kind = .op g' red → ¬ Demo.AsksOrder g')
    ∧ ∃ d, Answer Demo.rowsToWrite d ∧ (written p').Perm d := by
  have h : (match plan Demo.sess (writing Demo.sinkOp Demo.rowsToWrite) with | .ok (some _) => true | _ => false) = true := by
    decide +kernel
  split at h
  · rename_i p' hp
    refine ⟨p', hp, C94_only_the_coordinator_writes Demo.sess_scalesFree Demo.rowsToWrite_free (fun c1 h => ?_) hp,
      C94_written_rows_partial Demo.sess_ok Demo.sess_reads Demo.sinkOp_writes Demo.rowsToWrite_top (fun c1 h => ?_) hp⟩
    · rw [Demo.rowsToWrite_norm] at h; cases h; rfl
    · rw [Demo.rowsToWrite_norm] at h; cases h
      exact .ends rfl (fun h => by cases h)
  · cases h

example : ∃ p', dynamicPlan (Demo.sess.costing (fun _ _ => .ok (some 100)) 10) (writing Demo.sinkOp Demo.rowsToWrite) = .ok p'
    ∧ (∃ tc c', p' = .node (.op Demo.sinkOp none) tc [c']
      ∧ ∀ T t x, At T c' t x → ∀ g' red, x.kind = .op g' red → ¬ Demo.AsksOrder g')
    ∧ ∃ d, Answer Demo.rowsToWrite d ∧ (written p').Perm d := by
  have h : (dynamicPlan (Demo.sess.costing (fun _ _ => .ok (some 100)) 10) (writing Demo.sinkOp Demo.rowsToWrite)).toBool = true := by
    decide +kernel
  cases hp : dynamicPlan (Demo.sess.costing (fun _ _ => .ok (some 100)) 10) (writing Demo.sinkOp Demo.rowsToWrite) with
  | error e => rw [hp] at h; cases h
  | ok p' =>
    refine ⟨p', rfl, C94_only_the_coordinator_writes_dynamic Demo.sess_scalesFree (by rintro g red ⟨⟩ h; cases h)
        Demo.rowsToWrite_free (fun c1 h => ?_) _ _ hp,
      C94_written_rows_dynamic_partial Demo.sess_ok Demo.sess_reads Demo.sinkOp_writes Demo.rowsToWrite_top (fun c1 h => ?_) _ _ hp⟩
    · rw [Demo.rowsToWrite_norm] at h; cases h; rfl
    · rw [Demo.rowsToWrite_norm] at h; cases h
      exact .ends rfl (fun h => by cases h)

/-- As many rows are written as on a single node, and there are some. -/
example : (match plan Demo.sess (writing Demo.sinkOp Demo.rowsToWrite) with
    | .ok (some p') => some (written p').length
    | _ => none) = some (written (writing Demo.sinkOp Demo.rowsToWrite)).length
    ∧ written (writing Demo.sinkOp Demo.rowsToWrite) ≠ [] := by
  decide +kernel

end DD.Tree
