/-
**C60**: distributed queries with `LIMIT` and `ORDER BY ... LIMIT` return rows SQL allows. **C08**: a limit on the build side
of a broadcast join.
-/
import Verif.Lemmas.Choice
import Verif.Props.Plan
import Mathlib.Data.List.Sort

namespace DD.Tree

variable {Row : Type} {env : Env Row}

/-! ### Plans -/

/-- A limit of every partition: `LocalLimitExec`, or a scan with a limit. -/
def localLimit (n : Nat) (ch : Bool → TaskCtx → Nat → List Row → List Row)
    (h : ∀ w ctx q a, IsLocalLimit n a (ch w ctx q a)) (c : Plan Row) : Plan Row :=
  fresh (.op (.choice (IsLocalLimit n) ch h) none) [c]

/-- The first rows of every partition: `SortExec` with a fetch and `preserve_partitioning`. -/
def localTop (le : Row → Row → Bool) (n : Nat) (ch : Bool → TaskCtx → Nat → List Row → List Row)
    (h : ∀ w ctx q a, IsLocalTop le n a (ch w ctx q a)) (c : Plan Row) : Plan Row :=
  fresh (.op (.choice (IsLocalTop le n) ch h) none) [c]

/-- `CoalescePartitionsExec` with a fetch. -/
def gatherLimit (n : Nat) (ch : Bool → TaskCtx → Nat → List Row → List Row)
    (h : ∀ w ctx q a, IsLimit 0 n a (ch w ctx q a)) (c : Plan Row) : Plan Row :=
  fresh (.coalesce (some (.choice (IsLimit 0 n) ch h))) [c]

/-- `SortPreservingMergeExec` with a fetch. -/
def gatherTop (le : Row → Row → Bool) (n : Nat) (ch : Bool → TaskCtx → Nat → List Row → List Row)
    (h : ∀ w ctx q a, IsTop le 0 n a (ch w ctx q a)) (c : Plan Row) : Plan Row :=
  fresh (.spm (some (.choice (IsTop le 0 n) ch h)) le) [c]

/-- `GlobalLimitExec`. -/
def globalLimit (skip fetch : Nat) (ch : Bool → TaskCtx → Nat → List Row → List Row)
    (h : ∀ w ctx q a, IsLimit skip fetch a (ch w ctx q a)) (c : Plan Row) : Plan Row :=
  fresh (.op (.choice (IsLimit skip fetch) ch h) none) [c]

/-- `GlobalLimitExec` above a sort. Simplified: it is given by what it does to a sorted input, as plans are compared up to the
order of rows. -/
def globalTop (le : Row → Row → Bool) (skip fetch : Nat) (ch : Bool → TaskCtx → Nat → List Row → List Row)
    (h : ∀ w ctx q a, IsTop le skip fetch a (ch w ctx q a)) (c : Plan Row) : Plan Row :=
  fresh (.op (.choice (IsTop le skip fetch) ch h) none) [c]

/-! ### The planner accepts them -/

theorem fetch_src {k : Kind Row} {g : Op Row} {c : Plan Row} {d one ga} (hk : k = .coalesce (some g) ∨ ∃ le, k = .spm (some g) le)
    (hg : Whole [.perm] .perm g) (h : Src env .pre c ⟨d, one, false, .perm, ga⟩) (h1 : ∀ n deal, c.kind ≠ .otherRepart n deal)
    (h2 : ∀ h n o, c.kind ≠ .hashRepart h n o) (h3 : ∀ n, c.kind ≠ .broadcast n) :
    Src env .pre (fresh k [c]) ⟨none, true, false, .perm, true⟩ :=
  .fetch hk hg h1 h2 h3 h

theorem global_src {g : Op Row} {c : Plan Row} (hg : Whole [.perm] .perm g)
    (h : Src env .pre c ⟨none, true, false, .perm, true⟩) :
    Src env .pre (fresh (.op g none) [c]) ⟨none, true, false, .perm, true⟩ := by
  refine .opSingle hg (by rintro r ⟨⟩) (by simp) rfl (gs := [true]) rfl (by simp) ?_
  intro i c E b e1 e2 e3
  match i with
  | 0 =>
    simp at e1 e2 e3
    subst e1; subst e2; subst e3
    exact h

theorem local_src {g : Op Row} {c : Plan Row} {d one ga} (hg : Hom .perm .perm g)
    (h : Src env .pre c ⟨d, one, false, .perm, ga⟩) : Src env .pre (fresh (.op g none) [c]) ⟨none, one, false, .perm, ga⟩ :=
  .opLocal hg (by rintro r ⟨⟩) (by rintro _ _ ⟨⟩) h

theorem limit_whole {k m : Nat} {ch h} : Whole [.perm] .perm (Op.choice (Row := Row) (IsLimit k m) ch h) :=
  choice_whole fun _ _ _ hab hx => hx.congr hab (.refl _)

theorem top_whole {le : Row → Row → Bool} {k m : Nat} {ch h} : Whole [.perm] .perm (Op.choice (IsTop le k m) ch h) :=
  choice_whole fun _ _ _ hab hx => hx.congr hab (.refl _)

theorem localLimit_hom {n : Nat} {ch h} : Hom .perm .perm (Op.choice (Row := Row) (IsLocalLimit n) ch h) :=
  choice_hom (fun _ hx => hx.nil) (fun _ _ _ _ hx hy => hx.append hy) fun _ _ _ hab hx => hx.congr hab

theorem localTop_hom {le : Row → Row → Bool} {n : Nat} {ch h} : Hom .perm .perm (Op.choice (IsLocalTop le n) ch h) :=
  choice_hom (fun _ hx => hx.nil) (fun _ _ _ _ hx hy => hx.append hy) fun _ _ _ hab hx => hx.congr hab

/-! ### **C60** -/

/-- **C60** `LIMIT n`: a distributed query that ends in a coalesce with a fetch returns `n` rows of its input's table, or all
of them if there are fewer; whichever rows the coalesce takes. -/
theorem C60_limit (he : EnvOk env) {n : Nat} {ch h} {c p' : Plan Row} {d one ga}
    (hc : Src env .pre c ⟨d, one, false, .perm, ga⟩) (h1 : ∀ n deal, c.kind ≠ .otherRepart n deal)
    (h2 : ∀ h n o, c.kind ≠ .hashRepart h n o) (h3 : ∀ n, c.kind ≠ .broadcast n)
    (hp : plan env (gatherLimit n ch h c) = .ok (some p')) :
    ∃ a, Answer c a ∧ IsLimit 0 n a (distributed p') := by
  obtain ⟨x, hx, e⟩ := (C08_distributed_is_an_answer_partial he
    (fetch_src (.inl rfl) limit_whole hc h1 h2 h3) rfl rfl (.inl ⟨rfl, rfl⟩) hp).2
  obtain ⟨a, ha, hm⟩ := answer_one.mp hx
  exact ⟨a, ha, IsLimit.congr hm (.refl _) e.symm⟩

/-- **C60** `LIMIT fetch OFFSET skip`, with limits in every partition below the coalesce and an offset above it. -/
theorem C60_limit_offset (he : EnvOk env) {skip fetch : Nat} {ch1 h1 ch2 h2 ch3 h3} {c p' : Plan Row} {d one ga}
    (hc : Src env .pre c ⟨d, one, false, .perm, ga⟩)
    (hp : plan env (globalLimit skip fetch ch1 h1 (gatherLimit (skip + fetch) ch2 h2
      (localLimit (skip + fetch) ch3 h3 c))) = .ok (some p')) :
    ∃ a, Answer c a ∧ IsLimit skip fetch a (distributed p') := by
  have hs := global_src (g := .choice (IsLimit skip fetch) ch1 h1) limit_whole
    (fetch_src (.inl rfl) (limit_whole (k := 0) (m := skip + fetch) (ch := ch2) (h := h2))
      (local_src (localLimit_hom (n := skip + fetch) (ch := ch3) (h := h3)) hc)
      (by rintro _ _ ⟨⟩) (by rintro _ _ _ ⟨⟩) (by rintro _ ⟨⟩))
  obtain ⟨x, hx, e⟩ := (C08_distributed_is_an_answer_partial he hs rfl rfl (.inl ⟨rfl, rfl⟩) hp).2
  obtain ⟨y, hy, hm1⟩ := answer_one.mp hx
  obtain ⟨z, hz, hm2⟩ := answer_one.mp hy
  obtain ⟨a, ha, hm3⟩ := answer_one.mp hz
  refine ⟨a, ha, IsLimit.congr (IsLimit.of_local (Nat.le_refl _) hm3 ?_) (.refl _) e.symm⟩
  exact IsLimit.of_limit (Nat.le_refl _) hm2 hm1

/-- **C60** `ORDER BY le LIMIT fetch OFFSET skip`: every partition keeps its first rows, a merge gathers them, an offset is
taken off above it. `le` may be any preorder on rows. -/
theorem C60_order_by_limit_offset (he : EnvOk env) {le : Row → Row → Bool}
    (ht : ∀ a b c, le a b = true → le b c = true → le a c = true) {skip fetch : Nat} {ch1 h1 ch2 h2 ch3 h3}
    {c p' : Plan Row} {d one ga} (hc : Src env .pre c ⟨d, one, false, .perm, ga⟩)
    (hp : plan env (globalTop le skip fetch ch1 h1 (gatherTop le (skip + fetch) ch2 h2
      (localTop le (skip + fetch) ch3 h3 c))) = .ok (some p')) :
    ∃ a, Answer c a ∧ IsTop le skip fetch a (distributed p') := by
  have hs := global_src (g := .choice (IsTop le skip fetch) ch1 h1) top_whole
    (fetch_src (.inr ⟨le, rfl⟩) (top_whole (le := le) (k := 0) (m := skip + fetch) (ch := ch2) (h := h2))
      (local_src (localTop_hom (le := le) (n := skip + fetch) (ch := ch3) (h := h3)) hc)
      (by rintro _ _ ⟨⟩) (by rintro _ _ _ ⟨⟩) (by rintro _ ⟨⟩))
  obtain ⟨x, hx, e⟩ := (C08_distributed_is_an_answer_partial he hs rfl rfl (.inl ⟨rfl, rfl⟩) hp).2
  obtain ⟨y, hy, hm1⟩ := answer_one.mp hx
  obtain ⟨z, hz, hm2⟩ := answer_one.mp hy
  obtain ⟨a, ha, hm3⟩ := answer_one.mp hz
  refine ⟨a, ha, IsTop.congr (IsTop.of_local ht (Nat.le_refl _) hm3 ?_) (.refl _) e.symm⟩
  exact IsTop.of_top ht (Nat.le_refl _) hm2 hm1

/-- **C60** `ORDER BY le LIMIT n`, without an offset. -/
theorem C60_order_by_limit (he : EnvOk env) {le : Row → Row → Bool}
    (ht : ∀ a b c, le a b = true → le b c = true → le a c = true) {n : Nat} {ch1 h1 ch2 h2} {c p' : Plan Row} {d one ga}
    (hc : Src env .pre c ⟨d, one, false, .perm, ga⟩)
    (hp : plan env (gatherTop le n ch1 h1 (localTop le n ch2 h2 c)) = .ok (some p')) :
    ∃ a, Answer c a ∧ IsTop le 0 n a (distributed p') := by
  have hs := fetch_src (.inr ⟨le, rfl⟩) (top_whole (le := le) (k := 0) (m := n) (ch := ch1) (h := h1))
      (local_src (localTop_hom (le := le) (n := n) (ch := ch2) (h := h2)) hc)
      (by rintro _ _ ⟨⟩) (by rintro _ _ _ ⟨⟩) (by rintro _ ⟨⟩)
  obtain ⟨x, hx, e⟩ := (C08_distributed_is_an_answer_partial he hs rfl rfl (.inl ⟨rfl, rfl⟩) hp).2
  obtain ⟨y, hy, hm1⟩ := answer_one.mp hx
  obtain ⟨a, ha, hm2⟩ := answer_one.mp hy
  exact ⟨a, ha, IsTop.congr (IsTop.of_local ht (by omega) hm2 hm1) (.refl _) e.symm⟩

/-! ### The theorems apply -/

namespace Demo

/-- Rows are taken from the front in the tasks with an even number, and from the back in the others. -/
def turn (_ : Bool) (ctx : TaskCtx) (_ : Nat) (a : List (Nat × Nat)) : List (Nat × Nat) :=
  if ctx.index % 2 = 0 then a else a.reverse

theorem turn_perm (w : Bool) (ctx : TaskCtx) (q : Nat) (a : List (Nat × Nat)) : (turn w ctx q a).Perm a := by
  unfold turn
  split
  · exact .refl _
  · exact List.reverse_perm a

def someRows (k m : Nat) (w : Bool) (ctx : TaskCtx) (q : Nat) (a : List (Nat × Nat)) : List (Nat × Nat) :=
  ((turn w ctx q a).drop k).take m

theorem someRows_ok (k m : Nat) (w ctx q a) : IsLimit k m a (someRows k m w ctx q a) := .of_perm (turn_perm w ctx q a)

/-- By the first component: rows may be equal without being the same. -/
def byFirst (a b : Nat × Nat) : Bool := decide (a.1 ≤ b.1)

theorem byFirst_trans (a b c : Nat × Nat) (h1 : byFirst a b = true) (h2 : byFirst b c = true) : byFirst a c = true := by
  simp only [byFirst, decide_eq_true_eq] at *
  omega

def sortRows (a : List (Nat × Nat)) : List (Nat × Nat) := a.insertionSort (byFirst · · = true)

theorem sortRows_sorted (a : List (Nat × Nat)) : (sortRows a).Pairwise (byFirst · · = true) := by
  have : Std.Total (α := Nat × Nat) (byFirst · · = true) := ⟨fun a b => by simp only [byFirst, decide_eq_true_eq]; omega⟩
  have : IsTrans (Nat × Nat) (byFirst · · = true) := ⟨byFirst_trans⟩
  exact List.pairwise_insertionSort _ a

def firstRows (k m : Nat) (w : Bool) (ctx : TaskCtx) (q : Nat) (a : List (Nat × Nat)) : List (Nat × Nat) :=
  ((sortRows (turn w ctx q a)).drop k).take m

theorem firstRows_ok (k m : Nat) (w ctx q a) : IsTop byFirst k m a (firstRows k m w ctx q a) :=
  .of_sorted ((List.perm_insertionSort _ _).trans (turn_perm w ctx q a)) (sortRows_sorted _)

/-- `SELECT * FROM big LIMIT 2 OFFSET 1`. -/
def limited : Plan (Nat × Nat) :=
  globalLimit 1 2 (someRows 1 2) (someRows_ok 1 2) (gatherLimit 3 (someRows 0 3) (someRows_ok 0 3)
    (localLimit 3 (someRows 0 3) (fun w ctx q a => (someRows_ok 0 3 w ctx q a).local) big))

/-- `SELECT * FROM big ORDER BY first LIMIT 2 OFFSET 1`. -/
def ordered : Plan (Nat × Nat) :=
  globalTop byFirst 1 2 (firstRows 1 2) (firstRows_ok 1 2) (gatherTop byFirst 3 (firstRows 0 3) (firstRows_ok 0 3)
    (localTop byFirst 3 (firstRows 0 3) (fun w ctx q a => (firstRows_ok 0 3 w ctx q a).local) big))

/-- The only answer of `big`. -/
theorem big_answer {a : List (Nat × Nat)} (h : Answer big a) :
    a = [(1, 1), (2, 2), (1, 3), (3, 4), (2, 5), (7, 6), (1, 8)] := by
  simp only [big, fresh] at h
  obtain ⟨_, _, e⟩ := answer_node.mp h
  exact e

end Demo

/-- The queries are distributed, and what they return distributed is not what they return on a single node. -/
example : (∃ p', plan Demo.sess Demo.limited = .ok (some p')
      ∧ IsLimit 1 2 [(1, 1), (2, 2), (1, 3), (3, 4), (2, 5), (7, 6), (1, 8)] (distributed p'))
    ∧ result Demo.sess Demo.limited = some [(1, 3), (1, 1)] ∧ singleNode Demo.limited = [(2, 2), (1, 3)] := by
  refine ⟨?_, by decide +kernel, by decide +kernel⟩
  obtain ⟨p', hp⟩ := planned_of (env := Demo.sess) (p := Demo.limited) (by decide +kernel)
  obtain ⟨a, ha, h⟩ := C60_limit_offset Demo.sess_ok (Demo.leaf_src _ false (by simp) (by simp)) hp
  cases Demo.big_answer ha
  exact ⟨p', hp, h⟩

example : (∃ p', plan Demo.sess Demo.ordered = .ok (some p')
      ∧ IsTop Demo.byFirst 1 2 [(1, 1), (2, 2), (1, 3), (3, 4), (2, 5), (7, 6), (1, 8)] (distributed p'))
    ∧ result Demo.sess Demo.ordered = some [(1, 1), (1, 8)] ∧ singleNode Demo.ordered = [(1, 3), (1, 8)] := by
  refine ⟨?_, by decide +kernel, by decide +kernel⟩
  obtain ⟨p', hp⟩ := planned_of (env := Demo.sess) (p := Demo.ordered) (by decide +kernel)
  obtain ⟨a, ha, h⟩ := C60_order_by_limit_offset Demo.sess_ok Demo.byFirst_trans
    (Demo.leaf_src _ false (by simp) (by simp)) hp
  cases Demo.big_answer ha
  exact ⟨p', hp, h⟩

example : ∃ p', plan Demo.sess (gatherLimit 2 (Demo.someRows 0 2) (Demo.someRows_ok 0 2) Demo.big) = .ok (some p')
    ∧ (distributed p').length = 2 := by
  obtain ⟨p', hp⟩ := planned_of (env := Demo.sess) (p := gatherLimit 2 (Demo.someRows 0 2) (Demo.someRows_ok 0 2) Demo.big)
    (by decide +kernel)
  obtain ⟨a, ha, h⟩ := C60_limit Demo.sess_ok (Demo.leaf_src _ false (by simp) (by simp)) (by rintro _ _ ⟨⟩)
    (by rintro _ _ _ ⟨⟩) (by rintro _ ⟨⟩) hp
  cases Demo.big_answer ha
  exact ⟨p', hp, h.1⟩

example : ∃ p', plan Demo.sess (gatherTop Demo.byFirst 2 (Demo.firstRows 0 2) (Demo.firstRows_ok 0 2)
    (localTop Demo.byFirst 2 (Demo.firstRows 0 2) (fun w ctx q a => (Demo.firstRows_ok 0 2 w ctx q a).local) Demo.big))
      = .ok (some p')
    ∧ IsTop Demo.byFirst 0 2 [(1, 1), (2, 2), (1, 3), (3, 4), (2, 5), (7, 6), (1, 8)] (distributed p') := by
  obtain ⟨p', hp⟩ := planned_of (env := Demo.sess) (p := gatherTop Demo.byFirst 2 (Demo.firstRows 0 2) (Demo.firstRows_ok 0 2)
    (localTop Demo.byFirst 2 (Demo.firstRows 0 2) (fun w ctx q a => (Demo.firstRows_ok 0 2 w ctx q a).local) Demo.big))
    (by decide +kernel)
  obtain ⟨a, ha, h⟩ := C60_order_by_limit Demo.sess_ok Demo.byFirst_trans (Demo.leaf_src _ false (by simp) (by simp)) hp
  cases Demo.big_answer ha
  exact ⟨p', hp, h⟩

/-! ### **C08**: a limit on a build side -/

namespace Demo

/-- A cross join. Of the build side's rows the first component is kept, of the probe side's the second. -/
def cross : JoinSpec (Nat × Nat) where
  jt := .inner
  on := fun _ _ => true
  comb := fun l r => ((l.getD (0, 0)).1, (r.getD (0, 0)).2)
  mark := fun r _ => r
  lk := fun _ => 0
  rk := fun _ => 0

/-- `SELECT s.first, b.second FROM (SELECT * FROM small LIMIT 1) s, big b`. -/
def limitedBuild : Plan (Nat × Nat) :=
  fresh (.join .collect cross) [gatherLimit 1 (someRows 0 1) (someRows_ok 0 1) small, big]

/-- Every answer of the query has the same first component everywhere. -/
theorem limitedBuild_answer {d : List (Nat × Nat)} (h : Answer limitedBuild d) : ∀ x ∈ d, ∀ y ∈ d, x.1 = y.1 := by
  simp only [limitedBuild, gatherLimit, fresh] at h
  obtain ⟨a, b, ha, hb, e⟩ := answer_two.mp h
  obtain ⟨s, hs, hm⟩ := answer_one.mp ha
  simp only [small, fresh] at hs
  obtain ⟨_, _, e'⟩ := answer_node.mp hs
  have hl : a.length = 1 := by
    have := hm.1
    replace e' : s = [(1, 10), (2, 20), (3, 30)] := e'
    subst e'
    exact this
  obtain ⟨r, rfl⟩ := List.length_eq_one_iff.mp hl
  replace e : d = joinRows cross [r] b := e
  subst e
  have : ∀ x ∈ joinRows cross [r] b, x.1 = r.1 := by
    intro x hx
    simp only [joinRows, cross, pairs, List.flatMap_cons, List.flatMap_nil, List.append_nil, List.mem_map] at hx
    obtain ⟨_, _, rfl⟩ := hx
    rfl
  intro x hx y hy
  rw [this x hx, this y hy]

end Demo

/-- **C08 is false** for a join whose build side is collected with a limit: the planner broadcasts the unlimited build side and
every task of the join takes a limit of its own, possibly of other rows. What the distributed query returns is not an answer
of the query. -/
theorem C08_limited_build_side_false : ∃ p', plan Demo.sess Demo.limitedBuild = .ok (some p')
    ∧ ¬ ∃ d, Answer Demo.limitedBuild d ∧ (distributed p').Perm d := by
  obtain ⟨p', hp⟩ := planned_of (env := Demo.sess) (p := Demo.limitedBuild) (by decide +kernel)
  refine ⟨p', hp, ?_⟩
  rintro ⟨d, hd, e⟩
  have hr : result Demo.sess Demo.limitedBuild = some [(1, 4), (3, 1), (3, 3), (3, 6), (3, 8), (1, 2), (1, 5)] := by
    decide +kernel
  unfold result at hr
  rw [hp] at hr
  rw [Option.some.inj hr] at e
  exact absurd (Demo.limitedBuild_answer hd (1, 4) (e.mem_iff.mp (by simp)) (3, 1) (e.mem_iff.mp (by simp))) (by decide)

/-! ### **C60**: a limit directly above a hash repartitioning -/

namespace Demo

/-- `df.repartition(Hash([second], 2)).limit(1)`, grouped by the first component. -/
def limitedShuffle : Plan (Nat × Nat) :=
  twoStep sum id 2 (gatherLimit 1 (someRows 0 1) (someRows_ok 0 1) (fresh (.hashRepart Prod.snd 2 none) [big]))

/-- Every answer of the query has at most one row. -/
theorem limitedShuffle_answer {d : List (Nat × Nat)} (h : Answer limitedShuffle d) : d.length ≤ 1 := by
  obtain ⟨a, ha, rfl⟩ := answer_twoStep _ id 2 h
  simp only [gatherLimit, fresh] at ha
  obtain ⟨s, _, hm⟩ := answer_one.mp ha
  have hl : a.length ≤ 1 := by
    have := hm.1
    simp only [List.getD_cons_zero] at this
    omega
  rw [(Agg.final_partial sum a).length_eq]
  match a, hl with
  | [], _ => decide
  | [r], _ => exact List.length_filterMap_le _ _

end Demo

/-- **C60 is false** for a limit directly above a hash repartitioning, in a query that goes on: the shuffle the planner puts
between the two gathers nothing, so the limit is taken in each of the three tasks of the stage, and the query returns three rows
where one is asked for. -/
theorem C60_limit_above_repartition_false : ∃ p', plan Demo.sess Demo.limitedShuffle = .ok (some p')
    ∧ (distributed p').length = 3 ∧ ∀ d, Answer Demo.limitedShuffle d → d.length ≤ 1 := by
  obtain ⟨p', hp⟩ := planned_of (env := Demo.sess) (p := Demo.limitedShuffle) (by decide +kernel)
  refine ⟨p', hp, ?_, fun d => Demo.limitedShuffle_answer⟩
  have hr : result Demo.sess Demo.limitedShuffle = some [(7, 6), (1, 3), (3, 4)] := by decide +kernel
  unfold result at hr
  rw [hp] at hr
  rw [Option.some.inj hr]
  rfl

end DD.Tree
