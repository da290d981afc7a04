/-
Placing network boundaries: the task counts of a stage are allowed for every node in it, and the plan
becomes legal.
-/
import Verif.Spec.Source
import Verif.Lemmas.PlanPrepare
import Mathlib.Algebra.Order.Field.Rat
import Mathlib.Algebra.Order.Floor.Ring

namespace DD.Tree

variable {Row : Type} {env : Env Row}

/-! ### Task counts -/

theorem Allowed.pos {t : TaskCount} {T : Nat} (h : Allowed t T) : 1 ≤ T := by
  cases t with
  | desired => exact h
  | maximum => exact h.1

theorem allowed_one {t : TaskCount} (h : 1 ≤ t.asUsize) : Allowed t 1 := by
  cases t with
  | desired => exact Nat.le_refl _
  | maximum => exact ⟨Nat.le_refl _, h⟩

theorem allowed_self {t : TaskCount} (h : 1 ≤ t.asUsize) : Allowed t t.asUsize := by
  cases t with
  | desired => exact h
  | maximum => exact ⟨h, Nat.le_refl _⟩

theorem allowed_maximum_one {T : Nat} (h : Allowed (.maximum 1) T) : T = 1 := by
  have := h.1; have := h.2; omega

theorem allowed_limit {t : TaskCount} {l T : Nat} (h : Allowed (t.limit l) T) : Allowed t T := by
  cases t with
  | desired => exact h
  | maximum m => exact ⟨h.1, Nat.le_trans h.2 (Nat.min_le_left ..)⟩

theorem allowed_merge {a b : TaskCount} {T : Nat} (h : Allowed (a.merge b) T) : Allowed a T ∧ Allowed b T := by
  cases a <;> cases b <;> simp only [TaskCount.merge, Allowed] at h ⊢ <;> omega

theorem merge_pos {a b : TaskCount} (ha : 1 ≤ a.asUsize) (hb : 1 ≤ b.asUsize) : 1 ≤ (a.merge b).asUsize := by
  cases a <;> cases b <;> simp only [TaskCount.merge, TaskCount.asUsize] at * <;> omega

theorem limit_pos {t : TaskCount} {l : Nat} (ht : 1 ≤ t.asUsize) (hl : 1 ≤ l) : 1 ≤ (t.limit l).asUsize := by
  cases t <;> simp only [TaskCount.limit, TaskCount.asUsize] at * <;> omega

theorem merge_one {a b : TaskCount} (ha : 1 ≤ a.asUsize) (hb : 1 ≤ b.asUsize)
    (h : a = .maximum 1 ∨ b = .maximum 1) : a.merge b = .maximum 1 := by
  cases a <;> cases b <;> simp only [TaskCount.merge, TaskCount.asUsize, reduceCtorEq, TaskCount.maximum.injEq,
    or_false, false_or] at * <;> omega

theorem limit_one {l : Nat} (hl : 1 ≤ l) : (TaskCount.maximum 1).limit l = .maximum 1 := by
  simp only [TaskCount.limit, TaskCount.maximum.injEq]; omega

theorem foldl_merge (cs : List (Plan Row)) : ∀ (t : TaskCount), 1 ≤ t.asUsize → (∀ c ∈ cs, 1 ≤ c.tc.asUsize) →
    1 ≤ (cs.foldl (fun t c => t.merge c.tc) t).asUsize
    ∧ (∀ T, Allowed (cs.foldl (fun t c => t.merge c.tc) t) T → Allowed t T ∧ ∀ c ∈ cs, Allowed c.tc T)
    ∧ ((t = .maximum 1 ∨ ∃ c ∈ cs, c.tc = .maximum 1) → cs.foldl (fun t c => t.merge c.tc) t = .maximum 1) := by
  induction cs with
  | nil => intro t ht _; exact ⟨ht, fun T h => ⟨h, by simp⟩, by simp⟩
  | cons c cs ih =>
    intro t ht hcs
    have hc := hcs c (List.mem_cons_self ..)
    obtain ⟨h1, h2, h3⟩ := ih (t.merge c.tc) (merge_pos ht hc) fun x hx => hcs x (List.mem_cons_of_mem _ hx)
    refine ⟨h1, ?_, ?_⟩
    · intro T hT
      obtain ⟨a, b⟩ := h2 T hT
      refine ⟨(allowed_merge a).1, ?_⟩
      intro x hx
      rcases List.mem_cons.mp hx with rfl | hx
      · exact (allowed_merge a).2
      · exact b x hx
    · intro h
      apply h3
      rcases h with h | ⟨x, hx, h⟩
      · exact .inl (merge_one ht hc (.inl h))
      · rcases List.mem_cons.mp hx with rfl | hx
        · exact .inl (merge_one ht hc (.inr h))
        · exact .inr ⟨x, hx, h⟩

/-- The annotation of an inner node that is not an isolated union. -/
theorem annotate_spec (he : EnvOk env) {k : Kind Row} (hk : ∀ ws m, k ≠ .ciu ws m) {p : Plan Row} {d}
    (hd : env.desired p = .ok d) {cs : List (Plan Row)} (hne : cs ≠ []) (hpos : ∀ c ∈ cs, 1 ≤ c.tc.asUsize) :
    1 ≤ (annotate env k d cs).asUsize
    ∧ (∀ T, Allowed (annotate env k d cs) T → ∀ c ∈ cs, Allowed c.tc T)
    ∧ ((pinned env k = true ∨ ∃ c ∈ cs, c.tc = .maximum 1) → annotate env k d cs = .maximum 1) := by
  have hd1 : 1 ≤ (d.getD (.desired 1)).asUsize := by
    cases d with
    | none => exact Nat.le_refl _
    | some t => exact he.desired p t hd
  obtain ⟨f1, f2, f3⟩ := foldl_merge cs (d.getD (.desired 1)) hd1 hpos
  have hempty : cs.isEmpty = false := by
    cases cs with
    | nil => exact absurd rfl hne
    | cons => rfl
  have hann : annotate env k d cs = TaskCount.limit (if pinned env k then .maximum 1
      else cs.foldl (fun t c => t.merge c.tc) (d.getD (.desired 1))) env.maxTasks := by
    unfold annotate
    rw [hempty]
    simp only [Bool.false_eq_true, if_false]
  rw [hann]
  cases hp : pinned env k with
  | true =>
    simp only [if_true]
    rw [limit_one he.maxTasks]
    refine ⟨Nat.le_refl _, ?_, fun _ => rfl⟩
    intro T hT c hc
    rw [allowed_maximum_one hT]
    exact allowed_one (hpos c hc)
  | false =>
    simp only [Bool.false_eq_true, if_false, false_or]
    refine ⟨limit_pos f1 he.maxTasks, fun T hT => (f2 T (allowed_limit hT)).2, fun h => ?_⟩
    rw [f3 (.inr h), limit_one he.maxTasks]

theorem sum_pos_of_mem {l : List Nat} (h : ∃ x ∈ l, 1 ≤ x) : 1 ≤ l.sum := by
  obtain ⟨x, hx, h⟩ := h
  exact Nat.le_trans h (List.le_sum_of_mem hx)

/-- The annotation of an isolated union. -/
theorem annotate_ciu (he : EnvOk env) {ws m d} {cs : List (Plan Row)} (hne : cs ≠ [])
    (hpos : ∀ c ∈ cs, 1 ≤ c.tc.asUsize) : 1 ≤ (annotate env (.ciu ws m) d cs).asUsize := by
  unfold annotate
  cases cs with
  | nil => exact absurd rfl hne
  | cons c cs =>
    apply limit_pos _ he.maxTasks
    show 1 ≤ (List.map (·.tc.asUsize) (c :: cs)).sum
    exact sum_pos_of_mem ⟨_, List.mem_cons_self .., hpos c (List.mem_cons_self ..)⟩

/-! ### Inversion of the traversals -/

theorem bind_ok {α β ε : Type} {x : Except ε α} {f : α → Except ε β} {b : β} (h : x >>= f = .ok b) :
    ∃ a, x = .ok a ∧ f a = .ok b := by
  cases x with
  | error e => cases h
  | ok a => exact ⟨a, rfl, h⟩

theorem injectAll_inv {par} : ∀ {cs cs' : List (Plan Row)}, injectAll env par cs = .ok cs' →
    cs'.length = cs.length ∧ ∀ (i : Nat) c', cs'[i]? = some c' → ∃ c, cs[i]? = some c ∧ inject env par c = .ok c'
  | [], cs', h => by rw [injectAll] at h; cases h; simp
  | c :: cs, cs', h => by
    rw [injectAll] at h
    obtain ⟨c1, h1, h⟩ := bind_ok h
    obtain ⟨cs1, h2, h⟩ := bind_ok h
    cases h
    obtain ⟨i1, i2⟩ := injectAll_inv h2
    refine ⟨by simp [i1], ?_⟩
    intro i x hx
    cases i with
    | zero => simp at hx; subst hx; exact ⟨c, rfl, h1⟩
    | succ i =>
      obtain ⟨y, e1, e2⟩ := i2 i x (by simpa using hx)
      exact ⟨y, by simpa using e1, e2⟩

theorem inject_inv {par k tc} {cs : List (Plan Row)} {q} (h : inject env par (.node k tc cs) = .ok q) :
    ∃ cs' d, injectAll env k.asParent cs = .ok cs' ∧ env.desired (.node k tc cs) = .ok d
      ∧ wrap env par (.node k tc cs) (.node k (annotate env k d cs') cs') = .ok q := by
  rw [inject] at h
  obtain ⟨cs', h1, h⟩ := bind_ok h
  obtain ⟨d, h2, h⟩ := bind_ok h
  exact ⟨cs', d, h1, h2, h⟩

theorem propagateEach_inv : ∀ {cs cs' : List (Plan Row)} {ts : List TaskCount}, ts.length = cs.length →
    propagateEach env cs ts = .ok cs' →
    cs'.length = cs.length ∧ ∀ (i : Nat) c', cs'[i]? = some c' →
      ∃ c t, cs[i]? = some c ∧ ts[i]? = some t ∧ propagate env c t = .ok c'
  | [], cs', ts, _, h => by rw [propagateEach] at h; cases h; simp
  | c :: cs, cs', [], hl, h => by simp at hl
  | c :: cs, cs', t :: ts, hl, h => by
    rw [propagateEach] at h
    obtain ⟨c1, h1, h⟩ := bind_ok h
    obtain ⟨cs1, h2, h⟩ := bind_ok h
    cases h
    obtain ⟨i1, i2⟩ := propagateEach_inv (by simpa using hl) h2
    refine ⟨by simp [i1], ?_⟩
    intro i x hx
    cases i with
    | zero => simp at hx; subst hx; exact ⟨c, t, rfl, rfl, h1⟩
    | succ i =>
      obtain ⟨y, t', e1, e2, e3⟩ := i2 i x (by simpa using hx)
      exact ⟨y, t', by simpa using e1, by simpa using e2, e3⟩

theorem propagate_inv {k : Kind Row} (hk : k.isNet = false) (hc : ∀ ws m, k ≠ .ciu ws m) {tc t}
    {cs : List (Plan Row)} (hne : cs ≠ []) {q} (h : propagate env (.node k tc cs) t = .ok q) :
    ∃ cs', q = .node k t cs' ∧ cs'.length = cs.length ∧ ∀ (i : Nat) c', cs'[i]? = some c' →
      ∃ c, cs[i]? = some c ∧ propagate env c t = .ok c' := by
  have hempty : cs.isEmpty = false := by
    cases cs with
    | nil => exact absurd rfl hne
    | cons => rfl
  have h' : (do let cs' ← propagateEach env cs (cs.map fun _ => t); Except.ok (Plan.node k t cs')) = Except.ok q := by
    rw [propagate] at h
    · simpa only [hempty, hk, Bool.false_eq_true, if_false] using h
    · exact fun ws m e => hc ws m e
  obtain ⟨cs', h1, h2⟩ := bind_ok h'
  cases h2
  obtain ⟨i1, i2⟩ := propagateEach_inv (by simp) h1
  refine ⟨cs', rfl, i1, ?_⟩
  intro i c' hc'
  obtain ⟨c, t', e1, e2, e3⟩ := i2 i c' hc'
  rw [List.getElem?_map, e1] at e2
  simp at e2
  subst e2
  exact ⟨c, e1, e3⟩

theorem propagate_net {k : Kind Row} (hk : k.isNet = true) {tc t} {c : Plan Row} :
    propagate env (.node k tc [c]) t = .ok (.node k t [c]) := by
  rw [propagate]
  · simp [hk]
  · intro ws m e; subst e; cases hk

/-! ### Scale factors -/

mutual
theorem scaleFactor_pos (hf : 0 < env.factor) : ∀ p : Plan Row, 0 < scaleFactor env p
  | .node k tc cs => by
    rw [scaleFactor]
    split
    · exact zero_lt_one
    · have h1 : 0 < (match scaleFactors env cs with | none => 1 | some f => f) := by
        cases h : scaleFactors env cs with
        | none => exact zero_lt_one
        | some f => exact scaleFactors_pos hf cs f h
      simp only
      split
      · exact div_pos h1 hf
      · exact mul_pos h1 hf
      · exact h1
theorem scaleFactors_pos (hf : 0 < env.factor) : ∀ (cs : List (Plan Row)) (f : Rat),
    scaleFactors env cs = some f → 0 < f
  | [], f, h => by rw [scaleFactors] at h; cases h
  | c :: cs, f, h => by
    rw [scaleFactors] at h
    cases h2 : scaleFactors env cs with
    | none =>
      rw [h2] at h
      simp only [Option.some.injEq] at h
      rw [← h]; exact scaleFactor_pos hf c
    | some g =>
      rw [h2] at h
      simp only [Option.some.injEq] at h
      rw [← h]; exact lt_max_of_lt_left (scaleFactor_pos hf c)
end

theorem stageCount_spec (he : EnvOk env) {o q : Plan Row} {t} (hq : 1 ≤ q.tc.asUsize) (h : stageCount env o q = .ok t) :
    Allowed q.tc t.asUsize ∧ (q.tc.asUsize ≤ env.maxTasks → t.asUsize ≤ env.maxTasks) := by
  unfold stageCount at h
  split at h
  · cases h; exact ⟨allowed_self hq, id⟩
  · obtain ⟨c, _, h⟩ := bind_ok h
    unfold dynamicTaskCount at h
    split at h
    · cases h
    · rw [clampE, if_neg (by have := he.maxTasks; omega)] at h
      obtain rfl := Except.ok.inj h
      generalize hm : max 1 (min _ env.maxTasks) = n
      have hn : 1 ≤ n ∧ n ≤ env.maxTasks := by have := he.maxTasks; omega
      refine ⟨(allowed_merge (allowed_self (merge_pos hq (b := .desired n) hn.1))).1, ?_⟩
      cases q.tc <;> simp only [TaskCount.merge, TaskCount.asUsize] <;> omega

theorem consumerCount_pos (he : EnvOk env) (c : Plan Row) {t : TaskCount} (ht : 1 ≤ t.asUsize) :
    1 ≤ (consumerCount env c t).asUsize ∧ ∃ n, consumerCount env c t = .desired n := by
  unfold consumerCount
  split
  · refine ⟨?_, _, rfl⟩
    have hpos : (0 : Rat) < scaleFactor env c * (t.asUsize : Rat) :=
      mul_pos (scaleFactor_pos he.factor c) (by exact_mod_cast ht)
    have : 0 < (scaleFactor env c * (t.asUsize : Rat)).ceil := by
      have h1 := @Rat.le_ceil (scaleFactor env c * (t.asUsize : Rat))
      exact_mod_cast lt_of_lt_of_le hpos h1
    show 1 ≤ (scaleFactor env c * (t.asUsize : Rat)).ceil.toNat
    omega
  · exact ⟨Nat.le_refl _, 1, rfl⟩

theorem build_inv (he : EnvOk env) {o q c : Plan Row} {t} (hq : 1 ≤ q.tc.asUsize) (h : build env o q = .ok (c, t)) :
    propagate env q t = .ok c ∧ Allowed q.tc t.asUsize ∧ (q.tc.asUsize ≤ env.maxTasks → t.asUsize ≤ env.maxTasks)
      ∧ 1 ≤ (consumerCount env c t).asUsize ∧ ∃ n, consumerCount env c t = .desired n := by
  unfold build at h
  obtain ⟨t', h1, h⟩ := bind_ok h
  obtain ⟨c', h2, h⟩ := bind_ok h
  cases h
  obtain ⟨s1, s2⟩ := stageCount_spec he hq h1
  exact ⟨h2, s1, s2, consumerCount_pos he c s1.pos⟩

/-! ### Nodes after the injection -/

/-- `q`, part of a plan after injection, will be legal with whatever allowed task count its stage gets. -/
structure Inj (env : Env Row) (q : Plan Row) (J : SInfo Row) (A : List Row → Prop) : Prop where
  pos : 1 ≤ q.tc.asUsize
  gathered : J.gathered = true → q.tc = .maximum 1
  legal : ∀ t, Allowed q.tc t.asUsize → ∀ q', propagate env q t = .ok q' →
    ∃ P, Legal true t.asUsize q' ⟨P, J.dist.map (·.1), J.rep, J.eqv⟩
      ∧ (∀ h n, J.dist = some (h, n) → P = n) ∧ (J.one = true → P = 1) ∧ J.eqv.sub (Answer q') A

/-- Nodes that get a boundary whatever their parent is. -/
def Kind.fans : Kind Row → Bool
  | .hashRepart .. | .broadcast .. => true
  | _ => false

theorem wrap_other {o q : Plan Row} (h : q.kind.fans = false) : wrap env .other o q = .ok q := by
  cases q with
  | node k tc cs => cases k <;> first | rfl | simp [Plan.kind, Kind.fans] at h

theorem wrap_root {o q : Plan Row} (h : q.kind.fans = false) : wrap env .root o q = propagate env q q.tc := by
  cases q with
  | node k tc cs => cases k <;> first | rfl | simp [Plan.kind, Kind.fans] at h

theorem wrap_gathers {o q r : Plan Row} (h : q.kind.fans = false) (hw : wrap env .gathers o q = .ok r) :
    ∃ c t, build env o q = .ok (c, t)
      ∧ r = .node (.netCoalesce (c.parts * max (divCeil t.asUsize 1) 1) t.asUsize 0) (.maximum 1) [c] := by
  have hw' : (do
      let (c, t) ← build env o q
      let e ← CoalesceExec.tryNew c.parts t.asUsize 1
      Except.ok (Plan.node (.netCoalesce e.outPartitions t.asUsize 0) (.maximum 1) [c])) = Except.ok r := by
    cases q with
    | node k tc cs => cases k <;> first | exact hw | simp [Plan.kind, Kind.fans] at h
  obtain ⟨⟨c, t⟩, h1, h2⟩ := bind_ok hw'
  refine ⟨c, t, h1, ?_⟩
  cases h2
  rfl

/-- What injection makes of one node. -/
def Injected (env : Env Row) (par : Parent) (p q : Plan Row) (J : SInfo Row) : Prop :=
  if p.kind.fans then Inj env q J (Answer p)
  else ∃ q0 o, q0.kind.fans = false ∧ Inj env q0 J (Answer p) ∧ wrap env par o q0 = .ok q
    ∧ (p.kind.isHead = false → ∀ t q', Allowed q0.tc t.asUsize → propagate env q0 t = .ok q' →
        q'.kind.isHead = false ∧ q'.kind.isNet = false)

theorem Injected.other {p q : Plan Row} {J : SInfo Row} (h : Injected env .other p q J) : Inj env q J (Answer p) := by
  unfold Injected at h
  split at h
  · exact h
  · obtain ⟨q0, o, h1, h2, h3, _⟩ := h
    rw [wrap_other h1] at h3
    cases h3
    exact h2

/-- Below a gathering node. -/
theorem Injected.gathers (he : EnvOk env) {p q : Plan Row} {J : SInfo Row} (h : Injected env .gathers p q J)
    (hp : ∀ n deal, p.kind ≠ .otherRepart n deal) :
    (p.kind.fans = true ∧ Inj env q J (Answer p))
    ∨ (p.kind.fans = false ∧ (J.rep = false → Inj env q ⟨none, false, false, J.eqv, true⟩ (Answer p))) := by
  unfold Injected at h
  split at h
  · rename_i hf; exact .inl ⟨hf, h⟩
  · rename_i hf
    refine .inr ⟨by simpa using hf, fun hrep => ?_⟩
    obtain ⟨q0, o, h1, h2, h3, h4⟩ := h
    have hh : p.kind.isHead = false := by
      cases hk : p.kind <;> simp [hk, Kind.isHead, Kind.fans] at hf ⊢
      exact absurd hk (hp _ _)
    obtain ⟨c, s, e1, rfl⟩ := wrap_gathers h1 h3
    obtain ⟨e1, ha, _⟩ := build_inv he h2.pos e1
    obtain ⟨k1, k2⟩ := h4 hh _ _ ha e1
    obtain ⟨P, l, _, _, hd⟩ := h2.legal _ ha c e1
    rw [hrep] at l
    have l' : Legal true s.asUsize c ⟨P, none, false, J.eqv⟩ := l.forget
    have hsc : strip c = c := by
      cases c with
      | node k t cs =>
        cases cs with
        | nil => rfl
        | cons a cs => simp only [Plan.kind] at k1; simp [strip, k1]
    have hparts : c.parts = P := by
      obtain ⟨_, _, hg⟩ := l'.good ha.pos true
      exact hg.parts
    refine ⟨Nat.le_refl _, fun _ => rfl, ?_⟩
    intro t ht q' hq'
    rw [propagate_net rfl] at hq'
    cases hq'
    have ht1 : t.asUsize = 1 := allowed_maximum_one ht
    rw [ht1]
    refine ⟨_, .netCoalesce ha.pos (by rw [hparts]) k1 (fun _ => k2) (hsc.symm ▸ l'), by simp, by simp, ?_⟩
    rw [answer_pass (ansKind_head (.inr rfl))]
    exact hd

/-- A node with children that is neither a boundary, nor fans out, nor an isolated union: it is enough that it
is legal over legal children. -/
theorem injected_plain (he : EnvOk env) {par k tc} {cs : List (Plan Row)} {q} {J : SInfo Row}
    (hk : k.fans = false) (hn : k.isNet = false) (hc : ∀ ws m, k ≠ .ciu ws m) (hne : cs ≠ [])
    (hq : inject env par (.node k tc cs) = .ok q)
    (Q : Nat → Plan Row → Prop) (hpos : ∀ i c', Q i c' → 1 ≤ c'.tc.asUsize)
    (hQ : ∀ (i : Nat) c c', cs[i]? = some c → inject env k.asParent c = .ok c' → Q i c')
    (hga : J.gathered = true → pinned env k = true ∨ ∃ i < cs.length, ∀ c', Q i c' → c'.tc = .maximum 1)
    (hlegal : ∀ (t : TaskCount), 1 ≤ t.asUsize → (J.gathered = true → t.asUsize = 1) →
      (pinned env k = true → t.asUsize = 1) → ∀ cs'' : List (Plan Row), cs''.length = cs.length →
      (∀ (i : Nat) c'', cs''[i]? = some c'' → ∃ c', Q i c' ∧ Allowed c'.tc t.asUsize ∧ propagate env c' t = .ok c'') →
      ∃ P, Legal true t.asUsize (.node k t cs'') ⟨P, J.dist.map (·.1), J.rep, J.eqv⟩
        ∧ (∀ h n, J.dist = some (h, n) → P = n) ∧ (J.one = true → P = 1)
        ∧ J.eqv.sub (Answer (.node k t cs'')) (Answer (.node k tc cs))) :
    Injected env par (.node k tc cs) q J := by
  unfold Injected
  rw [if_neg (by simp [Plan.kind, hk])]
  obtain ⟨cs', d, h1, h2, h3⟩ := inject_inv hq
  obtain ⟨i1, i2⟩ := injectAll_inv h1
  have hQ' : ∀ (i : Nat) c', cs'[i]? = some c' → Q i c' := by
    intro i c' hc'
    obtain ⟨c, e1, e2⟩ := i2 i c' hc'
    exact hQ i c c' e1 e2
  have hne' : cs' ≠ [] := by
    intro h; subst h; simp at i1; exact hne (List.length_eq_zero_iff.mp i1.symm)
  have hpos' : ∀ c ∈ cs', 1 ≤ c.tc.asUsize := by
    intro c hcm
    obtain ⟨i, hi, rfl⟩ := List.getElem_of_mem hcm
    exact hpos i _ (hQ' i _ (by simp))
  obtain ⟨a1, a2, a3⟩ := annotate_spec he hc h2 hne' hpos'
  have hga' : J.gathered = true → annotate env k d cs' = .maximum 1 := by
    intro hg
    apply a3
    rcases hga hg with h | ⟨i, hi, h⟩
    · exact .inl h
    · have hi' : i < cs'.length := by omega
      exact .inr ⟨cs'[i], List.getElem_mem _, h _ (hQ' i _ (by simp))⟩
  refine ⟨.node k (annotate env k d cs') cs', _, hk, ⟨a1, hga', ?_⟩, h3, ?_⟩
  · intro t ht q' hq'
    obtain ⟨cs'', rfl, l2, p2⟩ := propagate_inv hn hc hne' hq'
    refine hlegal t ht.pos ?_ ?_ cs'' (by omega) ?_
    · intro hg
      simp only [Plan.tc] at ht
      rw [hga' hg] at ht
      exact allowed_maximum_one ht
    · intro hp
      simp only [Plan.tc] at ht
      rw [a3 (.inl hp)] at ht
      exact allowed_maximum_one ht
    · intro i c'' hc''
      obtain ⟨c', e1, e2⟩ := p2 i c'' hc''
      exact ⟨c', hQ' i c' e1, a2 _ ht c' (List.mem_of_getElem? e1), e2⟩
  · intro hh t q' ht hq'
    obtain ⟨cs'', rfl, _, _⟩ := propagate_inv hn hc hne' hq'
    exact ⟨hh, hn⟩

end DD.Tree
