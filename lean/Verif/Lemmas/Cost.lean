/-
Evaluating the cost formulas.
-/
import Verif.Spec.Cost
import Verif.Props.Stats

namespace DD.StageCost
open Complexity

theorem bind_ok {α β ε : Type} {x : Except ε α} {f : α → Except ε β} {b : β} (h : x >>= f = .ok b) :
    ∃ a, x = .ok a ∧ f a = .ok b := by
  cases x with
  | error e => cases h
  | ok a => exact ⟨a, rfl, h⟩

/-- The formula evaluates to `v`, up to saturation. -/
def Val (M : Nat) (out : Option Nat) (ins : List ChildStats) (c : Complexity) (v : Nat) : Prop :=
  c.whole ∧ ∃ w, c.cost M out ins = .ok (some w) ∧ min w M = min v M

variable {M : Nat} {out : Option Nat} {ins : List ChildStats}

theorem Val.plus (hM : 2 ≤ M) {a b x y} (ha : Val M out ins a x) (hb : Val M out ins b y) :
    Val M out ins (a.mkPlus b) (x + y) := by
  obtain ⟨wa, va, ea, ma⟩ := ha
  obtain ⟨wb, vb, eb, mb⟩ := hb
  obtain ⟨h1, h2⟩ := mkPlus_cost M hM out ins a b wa wb
  refine ⟨h1, _, by rw [h2, ea, eb]; rfl, ?_⟩
  omega

theorem min_mul (M x y x' y' : Nat) (h : min x M = min x' M) (h' : min y M = min y' M) :
    min (x * y) M = min (x' * y') M := by
  have key : ∀ x y, min (x * y) M = min (min x M * min y M) M := by
    intro x y
    rcases Nat.le_total x M with h1 | h1 <;> rcases Nat.le_total y M with h2 | h2
    · rw [Nat.min_eq_left h1, Nat.min_eq_left h2]
    · rw [Nat.min_eq_left h1, Nat.min_eq_right h2]
      rcases Nat.eq_zero_or_pos x with rfl | hn
      · simp
      · rw [Nat.min_eq_right (Nat.le_trans h2 (Nat.le_mul_of_pos_left y hn)), Nat.min_eq_right (Nat.le_mul_of_pos_left M hn)]
    · rw [Nat.min_eq_right h1, Nat.min_eq_left h2]
      rcases Nat.eq_zero_or_pos y with rfl | hm
      · simp
      · rw [Nat.min_eq_right (Nat.le_trans h1 (Nat.le_mul_of_pos_right x hm)), Nat.min_eq_right (Nat.le_mul_of_pos_right M hm)]
    · rw [Nat.min_eq_right h1, Nat.min_eq_right h2]
      rcases Nat.eq_zero_or_pos M with rfl | hM
      · simp
      · have : M ≤ x * y := Nat.le_trans h1 (Nat.le_mul_of_pos_right x (Nat.lt_of_lt_of_le hM h2))
        rw [Nat.min_eq_right this, Nat.min_eq_right (Nat.le_mul_of_pos_right M hM)]
  rw [key x y, key x' y', h, h']

theorem Val.mul {a b x y} (ha : Val M out ins a x) (hb : Val M out ins b y) :
    Val M out ins (a.mkMultiply b) (x * y) := by
  obtain ⟨wa, va, ea, ma⟩ := ha
  obtain ⟨wb, vb, eb, mb⟩ := hb
  obtain ⟨h1, h2⟩ := mkMultiply_cost M out ins a b wa wb
  refine ⟨h1, _, by rw [h2, ea, eb]; rfl, ?_⟩
  rw [min_assoc, min_self, min_mul M va vb x y ma mb]

theorem Val.const (n : Nat) : Val M out ins (.constant n) n :=
  ⟨⟨n, rfl⟩, _, by rw [Complexity.cost, castUsize_nat], by omega⟩

theorem Val.one : Val M out ins (.constant 1) 1 := by simpa using Val.const (M := M) (out := out) (ins := ins) 1
theorem Val.zero : Val M out ins (.constant 0) 0 := by simpa using Val.const (M := M) (out := out) (ins := ins) 0

theorem Val.lin {l v} (h : linearCost out ins l = some v) : Val M out ins (.linear l) v :=
  ⟨trivial, v, by rw [Complexity.cost, h], rfl⟩

/-! ### Sums built step by step -/

/-- The accumulator of a loop that adds up formulas: nothing yet, or a formula with the value. -/
def AccVal (V : Complexity → Nat → Prop) (acc : Option Complexity) (b : Bool) (v : Nat) : Prop :=
  (acc = none ∧ b = false ∧ v = 0) ∨ ∃ c, acc = some c ∧ b = true ∧ V c v

theorem AccVal.cast {V : Complexity → Nat → Prop} {acc b v b' v'} (h : AccVal V acc b v) (hb : b = b') (hv : v = v') :
    AccVal V acc b' v' := hb ▸ hv ▸ h

theorem AccVal.push {V : Complexity → Nat → Prop} (hV : ∀ a b x y, V a x → V b y → V (a.mkPlus b) (x + y))
    {acc b v c x} (h : AccVal V acc b v) (hc : V c x) : AccVal V (plusOpt acc c) true (v + x) := by
  rcases h with ⟨rfl, rfl, rfl⟩ | ⟨a, rfl, rfl, ha⟩
  · exact .inr ⟨_, rfl, rfl, by simpa using hc⟩
  · exact .inr ⟨_, rfl, rfl, hV _ _ _ _ ha hc⟩

theorem AccVal.foldl {V : Complexity → Nat → Prop} (hV : ∀ a b x y, V a x → V b y → V (a.mkPlus b) (x + y))
    {α : Type} (f : α → Complexity) (g : α → Nat) (l : List α) (hl : ∀ x ∈ l, V (f x) (g x)) :
    ∀ {acc b v}, AccVal V acc b v →
      AccVal V (l.foldl (fun acc x => plusOpt acc (f x)) acc) (b || !l.isEmpty) (v + (l.map g).sum) := by
  induction l with
  | nil => intro acc b v h; simpa using h
  | cons x xs ih =>
    intro acc b v h
    have := ih (fun y hy => hl y (by simp [hy])) (h.push hV (hl x (by simp)))
    simpa [Nat.add_assoc] using this

theorem AccVal.getD {V : Complexity → Nat → Prop} (h1 : V (.constant 1) 1) {acc b v} (h : AccVal V acc b v) :
    V (acc.getD (.constant 1)) (if b then v else 1) := by
  rcases h with ⟨rfl, rfl, rfl⟩ | ⟨a, rfl, rfl, ha⟩
  · simpa using h1
  · simpa using ha

/-! ### Expressions -/

mutual
theorem colsRead_eq : ∀ e : Expr, e.bytesPerRow.colsRead = e.columns
  | .column i => by simp [Expr.bytesPerRow, Expr.columns, Expr.occurrences]
  | .literal => by simp [Expr.bytesPerRow, Expr.columns, Expr.occurrences]
  | .call args => by
    rw [Expr.bytesPerRow, colsReadArgs_eq {} args]
    simp [Expr.columns, Expr.occurrences]
theorem colsReadArgs_eq : ∀ (acc : BytesPerRow) (es : List Expr),
    (bytesPerRowArgs acc es).colsRead = acc.colsRead ++ (argOccurrences es).map (·.1)
  | acc, [] => by simp [bytesPerRowArgs, argOccurrences]
  | acc, e :: es => by
    rw [bytesPerRowArgs, colsReadArgs_eq _ es, BytesPerRow.push, colsRead_eq e]
    simp [argOccurrences, Expr.columns]
end

/-- the weighted sum over occurrences -/
def weight (col : Nat → Nat) (os : List (Nat × Nat)) : Nat := (os.map fun o => o.2 * col o.1).sum

theorem weight_shift (col : Nat → Nat) (os : List (Nat × Nat)) :
    weight col (os.map fun o => (o.1, o.2 + 1)) = weight col os + (os.map fun o => col o.1).sum := by
  induction os with
  | nil => rfl
  | cons o os ih =>
    simp only [weight, List.map_cons, List.sum_cons] at ih ⊢
    rw [ih]
    ring_nf

theorem weight_append (col : Nat → Nat) (a b : List (Nat × Nat)) : weight col (a ++ b) = weight col a + weight col b := by
  simp [weight]

mutual
theorem expr_val {V : Complexity → Nat → Prop} (hV : ∀ a b x y, V a x → V b y → V (a.mkPlus b) (x + y)) (col : Nat → Nat) :
    ∀ e : Expr, (∀ i ∈ e.columns, V (.linear (.column i)) (col i)) →
      AccVal V e.bytesPerRow.processed (e.occurrences.any fun o => 0 < o.2) (weight col e.occurrences)
  | .column i, _ => .inl ⟨rfl, by simp [Expr.occurrences], by simp [Expr.occurrences, weight]⟩
  | .literal, _ => .inl ⟨rfl, by simp [Expr.occurrences], by simp [Expr.occurrences, weight]⟩
  | .call args, h => by
    have h' : ∀ i ∈ (argOccurrences args).map (·.1), V (.linear (.column i)) (col i) := by
      intro i hi
      apply h
      simpa [Expr.columns, Expr.occurrences] using hi
    have := args_val hV col args h' {} false 0 (.inl ⟨rfl, rfl, rfl⟩)
    rw [Expr.bytesPerRow, Expr.occurrences, weight_shift]
    convert this using 1
    · cases argOccurrences args <;> simp
    · omega
theorem args_val {V : Complexity → Nat → Prop} (hV : ∀ a b x y, V a x → V b y → V (a.mkPlus b) (x + y)) (col : Nat → Nat) :
    ∀ (es : List Expr), (∀ i ∈ (argOccurrences es).map (·.1), V (.linear (.column i)) (col i)) →
      ∀ (acc : BytesPerRow) (b : Bool) (v : Nat), AccVal V acc.processed b v →
        AccVal V (bytesPerRowArgs acc es).processed (b || !(argOccurrences es).isEmpty)
          (v + weight col (argOccurrences es) + ((argOccurrences es).map fun o => col o.1).sum)
  | [], _, acc, b, v, ha => by simpa [bytesPerRowArgs, argOccurrences, weight] using ha
  | e :: es, h, acc, b, v, ha => by
    have he := expr_val hV col e (fun i hi => h i (by
      simp only [argOccurrences, List.map_append, List.mem_append]; exact .inl hi))
    rw [bytesPerRowArgs]
    have hpush : AccVal V (acc.push e.bytesPerRow).processed (b || !e.occurrences.isEmpty)
        (v + weight col e.occurrences + (e.occurrences.map fun o => col o.1).sum) := by
      have h1 : AccVal V (match e.bytesPerRow.processed with | some p => plusOpt acc.processed p | none => acc.processed)
          (b || e.occurrences.any fun o => 0 < o.2) (v + weight col e.occurrences) := by
        rcases he with ⟨e1, e2, e3⟩ | ⟨c, e1, e2, e3⟩
        · rw [e1, e2, e3]; simpa using ha
        · rw [e1, e2]; simpa using ha.push hV e3
      have h2 := h1.foldl hV (fun i => .linear (.column i)) col e.columns (fun i hi => h i (by
        simp only [argOccurrences, List.map_append, List.mem_append]; exact .inl hi))
      rw [BytesPerRow.push, colsRead_eq e]
      refine h2.cast ?_ ?_
      · simp only [Expr.columns, List.isEmpty_map]
        cases e.occurrences <;> simp
      · simp [Expr.columns, Function.comp_def]
    have := args_val hV col es (fun i hi => h i (by
      simp only [argOccurrences, List.map_append, List.mem_append]; exact .inr hi)) _ _ _ hpush
    rw [argOccurrences, weight_append]
    refine this.cast ?_ ?_
    · rw [Bool.or_assoc]; congr 1
      cases e.occurrences <;> simp
    · simp only [List.map_append, List.sum_append]; omega
end

theorem evalBytes_eq (col : Nat → Nat) (e : Expr) :
    evalBytes col e = if e.occurrences.any (fun o => 0 < o.2) then weight col e.occurrences else 1 := rfl

theorem eval_val {V : Complexity → Nat → Prop} (hV : ∀ a b x y, V a x → V b y → V (a.mkPlus b) (x + y))
    (h1 : V (.constant 1) 1) (col : Nat → Nat) (e : Expr) (h : ∀ i ∈ e.columns, V (.linear (.column i)) (col i)) :
    V e.complexity (evalBytes col e) := by
  rw [evalBytes_eq]
  exact (expr_val hV col e h).getD h1

theorem keys_val {V : Complexity → Nat → Prop} (hV : ∀ a b x y, V a x → V b y → V (a.mkPlus b) (x + y))
    (h1 : V (.constant 1) 1) (col : Nat → Nat) (l : Nat → Linear) (e : Expr) (h : ∀ i ∈ e.columns, V (.linear (l i)) (col i)) :
    V ((e.bytesPerRow.colsRead.foldl (fun acc i => plusOpt acc (.linear (l i))) none).getD (.constant 1)) (keyBytes col e) := by
  rw [colsRead_eq]
  have := (AccVal.foldl hV (fun i => .linear (l i)) col e.columns h (acc := none) (.inl ⟨rfl, rfl, rfl⟩)).getD h1
  unfold keyBytes
  convert this using 1
  by_cases hc : e.columns = [] <;> simp [hc]

/-! ### Join filters -/

/-- Formulas without logarithms. -/
def noLog : Complexity → Prop
  | .constant _ | .linear _ => True
  | .log _ _ => False
  | .plus a b | .multiply a b => noLog a ∧ noLog b

theorem noLog_plus {a b : Complexity} (ha : noLog a) (hb : noLog b) : noLog (a.mkPlus b) := by
  fun_induction Complexity.mkPlus a b with
  | case1 n m => trivial
  | case2 a k m ih => exact ih ha.1 trivial
  | case3 b h1 h2 =>
    unfold Complexity.mkMultiply
    split
    · trivial
    · exact ⟨trivial, hb⟩
  | case4 a b h1 h2 h3 => exact ⟨ha, hb⟩

theorem remap_whole (log2 : Rat → Rat) (cs : List (Nat × Side)) : ∀ c : Complexity, noLog c → c.whole → (remap log2 cs c).whole := by
  intro c
  induction c with
  | constant v => intro _ h; exact h
  | linear l =>
    intro _ _
    cases l <;> simp only [remap] <;> try trivial
    split <;> first | trivial | exact ⟨1, by simp⟩
  | log n m => intro h; exact h.elim
  | plus a b iha ihb =>
    intro h w
    exact (mkPlus_cost 2 (by omega) none [] _ _ (iha h.1 w.1) (ihb h.2 w.2)).1
  | multiply a b iha ihb =>
    intro h w
    exact (mkMultiply_cost 2 none [] _ _ (iha h.1 w.1) (ihb h.2 w.2)).1

/-- The formula of a join filter and its value after renaming columns. -/
def RVal (log2 : Rat → Rat) (cs : List (Nat × Side)) (M : Nat) (out : Option Nat) (ins : List ChildStats)
    (c : Complexity) (v : Nat) : Prop :=
  c.whole ∧ noLog c ∧ Val M out ins (remap log2 cs c) v

theorem RVal.plus (hM : 2 ≤ M) {log2 : Rat → Rat} {cs : List (Nat × Side)} {a b : Complexity} {x y}
    (ha : RVal log2 cs M out ins a x) (hb : RVal log2 cs M out ins b y) : RVal log2 cs M out ins (a.mkPlus b) (x + y) := by
  obtain ⟨wa, na, ha⟩ := ha
  obtain ⟨wb, nb, hb⟩ := hb
  refine ⟨(mkPlus_cost M hM out ins a b wa wb).1, noLog_plus na nb, ?_⟩
  fun_induction Complexity.mkPlus a b generalizing x y with
  | case1 n m => exact Val.plus hM ha hb
  | case2 a k m ih =>
    obtain ⟨wa1, wk⟩ := wa
    simp only [remap] at ha hb
    obtain ⟨k, rfl⟩ := wk
    obtain ⟨m, rfl⟩ := wb
    obtain ⟨w1, v, e1, e2⟩ := ha
    have hra := remap_whole log2 cs a na.1 wa1
    have hk : Complexity.whole (.constant (k : Rat)) := ⟨k, rfl⟩
    rw [(mkPlus_cost M hM out ins _ _ hra hk).2] at e1
    have hkm : ((k : Rat) + (m : Rat)) = ((k + m : Nat) : Rat) := by push_cast; rfl
    obtain ⟨_, w2, e3, e4⟩ := hb
    rw [Complexity.cost, castUsize_nat] at e3
    cases e3
    rcases hc : (remap log2 cs a).cost M out ins with e | (_ | u)
    · rw [hc] at e1; cases e1
    · rw [hc] at e1; cases e1
    · rw [hc, Complexity.cost, castUsize_nat] at e1
      cases e1
      have := ih wa1 na.1 (x := u) ⟨hra, u, hc, rfl⟩ (y := k + m) (by rw [hkm]; exact ⟨k + m, rfl⟩) trivial
        (by rw [hkm]; exact Val.const (k + m))
      obtain ⟨w, v, e5, e6⟩ := this
      exact ⟨w, v, e5, by omega⟩
  | case3 b h1 h2 =>
    have h2 : Val M out ins (.constant 2) 2 := by simpa using Val.const (M := M) (out := out) (ins := ins) 2
    have hxy : min x M = min y M := by
      obtain ⟨_, w, e, e'⟩ := ha
      obtain ⟨_, w2, e2, e2'⟩ := hb
      rw [e] at e2; cases e2; omega
    have hm := h2.mul hb
    have : Val M out ins (remap log2 cs (Complexity.mkMultiply (.constant 2) b)) (2 * y) := by
      cases b <;> exact hm
    obtain ⟨w, v, e5, e6⟩ := this
    exact ⟨w, v, e5, by omega⟩
  | case4 a b h1 h2 h3 => exact Val.plus hM ha hb

theorem filter_val (hM : 2 ≤ M) (log2 : Rat → Rat) (f : JoinFilter) (s : Sizes)
    (hl : ∀ i ∈ filterReads .left (some f), linearCost out ins (.columnFromLeft i) = some (s.leftCol i))
    (hr : ∀ i ∈ filterReads .right (some f), linearCost out ins (.columnFromRight i) = some (s.rightCol i)) :
    Val M out ins (joinFilterComplexity log2 f) (filterBytes s f) := by
  have h1 : RVal log2 f.columns M out ins (.constant 1) 1 := ⟨⟨1, by simp⟩, trivial, by simpa [remap] using Val.one⟩
  refine (eval_val (V := RVal log2 f.columns M out ins) (fun _ _ _ _ => RVal.plus hM) h1 (filterCol s f) f.expr ?_).2.2
  intro i hi
  refine ⟨trivial, trivial, ?_⟩
  unfold filterCol
  simp only [remap]
  rcases hc : f.columns[i]? with _ | ⟨j, sd⟩
  · exact Val.one
  · cases sd with
    | none => exact Val.one
    | left => exact Val.lin (hl j (by simp only [filterReads, List.mem_filterMap]; exact ⟨i, hi, by simp [hc]⟩))
    | right => exact Val.lin (hr j (by simp only [filterReads, List.mem_filterMap]; exact ⟨i, hi, by simp [hc]⟩))

/-! ### Operators -/

theorem plusAll_val (hM : 2 ≤ M) {α : Type} (f : α → Complexity) (g : α → Nat) (l : List α)
    (hl : ∀ x ∈ l, Val M out ins (f x) (g x)) : ∀ {c v}, Val M out ins c v →
      Val M out ins (plusAll c (l.map f)) (v + (l.map g).sum) := by
  induction l with
  | nil => intro c v h; simpa [plusAll] using h
  | cons x xs ih =>
    intro c v h
    have := ih (fun y hy => hl y (by simp [hy])) (h.plus hM (hl x (by simp)))
    simpa [plusAll, Nat.add_assoc] using this

theorem plusFilter_val (hM : 2 ≤ M) (log2 : Rat → Rat) (f : Option JoinFilter) (s : Sizes)
    (hl : ∀ i ∈ filterReads .left f, linearCost out ins (.columnFromLeft i) = some (s.leftCol i))
    (hr : ∀ i ∈ filterReads .right f, linearCost out ins (.columnFromRight i) = some (s.rightCol i))
    {c v} (h : Val M out ins c v) : Val M out ins (plusFilter log2 c f) (v + optFilterBytes s f) := by
  cases f with
  | none => exact h
  | some f => exact h.plus hM (filter_val hM log2 f s hl hr)

theorem foldlOpt_val (hM : 2 ≤ M) {α : Type} (f : α → Complexity) (g : α → Nat) (l : List α)
    (hl : ∀ x ∈ l, Val M out ins (f x) (g x)) {acc b v} (h : AccVal (Val M out ins) acc b v) :
    AccVal (Val M out ins) ((l.map f).foldl plusOpt acc) (b || !l.isEmpty) (v + (l.map g).sum) := by
  rw [List.foldl_map]
  exact h.foldl (fun _ _ _ _ => Val.plus hM) f g l hl

/-- What `Known` says in terms of the lookups of the cost formulas. -/
structure Reads (out : Option Nat) (ins : List ChildStats) (op : Node) (s : Sizes) : Prop where
  all : linearCost out ins .allColumns = some s.left
  allLeft : linearCost out ins .allColumnsFromLeft = some s.left
  allRight : linearCost out ins .allColumnsFromRight = some s.right
  col : ∀ i ∈ op.leftReads, linearCost out ins (.column i) = some (s.leftCol i)
  colLeft : ∀ i ∈ op.leftReads, linearCost out ins (.columnFromLeft i) = some (s.leftCol i)
  colRight : ∀ i ∈ op.rightReads, linearCost out ins (.columnFromRight i) = some (s.rightCol i)

theorem Known.reads {op : Node} {stats : Stats} {children : List Stats} {s : Sizes} (h : Known M op stats children s)
    (hop : op.isLeaf = false) : Reads stats.total (children.map Stats.child) op s := by
  obtain ⟨c, hc, ht, hcols⟩ := h.left hop
  obtain ⟨d, hd, hu, hdols⟩ := h.right hop
  have h1 : (children.map Stats.child).head? = some c.child := by rw [List.head?_map, hc]; rfl
  have h2 : (children.map Stats.child).getLast? = some d.child := by rw [List.getLast?_map, hd]; rfl
  have hl : ∀ i ∈ op.leftReads, c.child.cols[i]? = some (some (s.leftCol i)) := by
    intro i hi
    obtain ⟨k, e1, e2⟩ := hcols i hi
    simp [Stats.child, e1, e2]
  have hr : ∀ i ∈ op.rightReads, d.child.cols[i]? = some (some (s.rightCol i)) := by
    intro i hi
    obtain ⟨k, e1, e2⟩ := hdols i hi
    simp [Stats.child, e1, e2]
  refine ⟨?_, ?_, ?_, fun i hi => ?_, fun i hi => ?_, fun i hi => ?_⟩
  · simp [linearCost, h1, Stats.child, ht]
  · simp [linearCost, h1, Stats.child, ht]
  · simp [linearCost, h2, Stats.child, hu]
  · simp [linearCost, h1, hl i hi]
  · simp [linearCost, h1, hl i hi]
  · simp [linearCost, h2, hr i hi]

theorem keyComplexity_val (hM : 2 ≤ M) (e : Expr) (col : Nat → Nat)
    (h : ∀ i ∈ e.columns, linearCost out ins (.column i) = some (col i)) : Val M out ins (keyComplexity e) (keyBytes col e) :=
  keys_val (fun _ _ _ _ => Val.plus hM) Val.one col .column e fun i hi => Val.lin (h i hi)

theorem joinKey_left (hM : 2 ≤ M) (e : Expr) (col : Nat → Nat)
    (h : ∀ i ∈ e.columns, linearCost out ins (.columnFromLeft i) = some (col i)) :
    Val M out ins (joinKeyComplexity e true) (keyBytes col e) :=
  keys_val (fun _ _ _ _ => Val.plus hM) Val.one col .columnFromLeft e fun i hi => Val.lin (h i hi)

theorem joinKey_right (hM : 2 ≤ M) (e : Expr) (col : Nat → Nat)
    (h : ∀ i ∈ e.columns, linearCost out ins (.columnFromRight i) = some (col i)) :
    Val M out ins (joinKeyComplexity e false) (keyBytes col e) :=
  keys_val (fun _ _ _ _ => Val.plus hM) Val.one col .columnFromRight e fun i hi => Val.lin (h i hi)

theorem exprs_val (hM : 2 ≤ M) (e : Expr) (col : Nat → Nat)
    (h : ∀ i ∈ e.columns, linearCost out ins (.column i) = some (col i)) : Val M out ins e.complexity (evalBytes col e) :=
  eval_val (fun _ _ _ _ => Val.plus hM) Val.one col e fun i hi => Val.lin (h i hi)

theorem Val.cast {c v v'} (h : Val M out ins c v) (hv : v = v') : Val M out ins c v' := hv ▸ h

/-- The formula of a grouping, sorting or partitioning operator. -/
theorem keyed_val (hM : 2 ≤ M) (keys : List Expr) (s : Sizes) (h0 : linearCost out ins .allColumns = some s.left)
    (h : ∀ i ∈ (keys.map Expr.columns).flatten, linearCost out ins (.column i) = some (s.leftCol i)) :
    Val M out ins (plusAll (.linear .allColumns) (keys.map keyComplexity)) (s.left + (keys.map (keyBytes s.leftCol)).sum) :=
  plusAll_val hM _ _ _ (fun e he => keyComplexity_val hM e _ fun i hi =>
    h i (List.mem_flatten.2 ⟨_, List.mem_map_of_mem he, hi⟩)) (Val.lin h0)

theorem cpu_val (hM : 2 ≤ M) (log2 : Rat → Rat) (op : Node) (stats : Stats) (children : List Stats) (s : Sizes)
    (h : Known M op stats children s) (hs : ∀ keys fetch, op ≠ .sort keys fetch) :
    Val M stats.total (children.map Stats.child) (complexityCpu log2 op) (cpuBytes s op) := by
  have ho : linearCost stats.total (children.map Stats.child) .allOutputColumns = some s.out := h.out
  cases op with
  | dataSource => exact Val.lin ho
  | boundary => exact Val.lin ho
  | other => exact Val.lin ho
  | empty => exact Val.one
  | limit => exact Val.one
  | coalescePartitions => exact Val.one
  | broadcast _ => exact Val.one
  | union => exact Val.one
  | sort keys fetch => exact absurd rfl (hs keys fetch)
  | crossJoin =>
    have r := h.reads rfl
    exact (Val.lin r.allLeft).mul (Val.lin r.allRight)
  | nestedLoopJoin f =>
    have r := h.reads rfl
    exact plusFilter_val hM log2 f s r.colLeft r.colRight ((Val.lin r.allLeft).mul (Val.lin r.allRight))
  | hashJoin on f =>
    have r := h.reads rfl
    have hl : ∀ k ∈ on, ∀ i ∈ k.1.columns, i ∈ (Node.hashJoin on f).leftReads := fun k hk i hi =>
      List.mem_append.2 (.inl (List.mem_flatten.2 ⟨_, List.mem_map_of_mem (f := fun k : Expr × Expr => k.1.columns) hk, hi⟩))
    have hr : ∀ k ∈ on, ∀ i ∈ k.2.columns, i ∈ (Node.hashJoin on f).rightReads := fun k hk i hi =>
      List.mem_append.2 (.inl (List.mem_flatten.2 ⟨_, List.mem_map_of_mem (f := fun k : Expr × Expr => k.2.columns) hk, hi⟩))
    have h1 := (Val.lin (M := M) r.allLeft).plus hM (Val.lin r.allLeft)
    have h2 := plusAll_val hM (fun k : Expr × Expr => joinKeyComplexity k.1 true) (fun k => keyBytes s.leftCol k.1) on
      (fun k hk => joinKey_left hM k.1 _ fun i hi => r.colLeft i (hl k hk i hi)) h1
    have h3 := h2.plus hM (Val.lin r.allRight)
    have h4 := plusAll_val hM (fun k : Expr × Expr => joinKeyComplexity k.2 false) (fun k => keyBytes s.rightCol k.2) on
      (fun k hk => joinKey_right hM k.2 _ fun i hi => r.colRight i (hr k hk i hi)) h3
    exact (plusFilter_val hM log2 f s (fun i hi => r.colLeft i (List.mem_append.2 (.inr hi)))
      (fun i hi => r.colRight i (List.mem_append.2 (.inr hi))) h4).cast (by simp only [cpuBytes]; omega)
  | symmetricHashJoin on f =>
    have r := h.reads rfl
    have hl : ∀ k ∈ on, ∀ i ∈ k.1.columns, i ∈ (Node.symmetricHashJoin on f).leftReads := fun k hk i hi =>
      List.mem_append.2 (.inl (List.mem_flatten.2 ⟨_, List.mem_map_of_mem (f := fun k : Expr × Expr => k.1.columns) hk, hi⟩))
    have hr : ∀ k ∈ on, ∀ i ∈ k.2.columns, i ∈ (Node.symmetricHashJoin on f).rightReads := fun k hk i hi =>
      List.mem_append.2 (.inl (List.mem_flatten.2 ⟨_, List.mem_map_of_mem (f := fun k : Expr × Expr => k.2.columns) hk, hi⟩))
    have h1 := (Val.lin (M := M) r.allLeft).plus hM (Val.lin r.allLeft)
    have h2 := plusAll_val hM (fun k : Expr × Expr => joinKeyComplexity k.1 true) (fun k => keyBytes s.leftCol k.1) on
      (fun k hk => joinKey_left hM k.1 _ fun i hi => r.colLeft i (hl k hk i hi)) h1
    have h3 := (h2.plus hM (Val.lin r.allRight)).plus hM (Val.lin r.allRight)
    have h4 := plusAll_val hM (fun k : Expr × Expr => joinKeyComplexity k.2 false) (fun k => keyBytes s.rightCol k.2) on
      (fun k hk => joinKey_right hM k.2 _ fun i hi => r.colRight i (hr k hk i hi)) h3
    exact (plusFilter_val hM log2 f s (fun i hi => r.colLeft i (List.mem_append.2 (.inr hi)))
      (fun i hi => r.colRight i (List.mem_append.2 (.inr hi))) h4).cast (by simp only [cpuBytes]; omega)
  | sortMergeJoin on f =>
    have r := h.reads rfl
    have hl : ∀ k ∈ on, ∀ i ∈ k.1.columns, i ∈ (Node.sortMergeJoin on f).leftReads := fun k hk i hi =>
      List.mem_append.2 (.inl (List.mem_flatten.2 ⟨_, List.mem_map_of_mem (f := fun k : Expr × Expr => k.1.columns) hk, hi⟩))
    have hr : ∀ k ∈ on, ∀ i ∈ k.2.columns, i ∈ (Node.sortMergeJoin on f).rightReads := fun k hk i hi =>
      List.mem_append.2 (.inl (List.mem_flatten.2 ⟨_, List.mem_map_of_mem (f := fun k : Expr × Expr => k.2.columns) hk, hi⟩))
    have h1 := foldlOpt_val hM (fun k : Expr × Expr => joinKeyComplexity k.1 true) (fun k => keyBytes s.leftCol k.1) on
      (fun k hk => joinKey_left hM k.1 _ fun i hi => r.colLeft i (hl k hk i hi)) (acc := none) (.inl ⟨rfl, rfl, rfl⟩)
    have h2 := foldlOpt_val hM (fun k : Expr × Expr => joinKeyComplexity k.2 false) (fun k => keyBytes s.rightCol k.2) on
      (fun k hk => joinKey_right hM k.2 _ fun i hi => r.colRight i (hr k hk i hi)) h1
    simp only [complexityCpu, cpuBytes]
    cases f with
    | none =>
      refine (h2.getD Val.one).cast ?_
      cases on <;> simp [optFilterBytes]
    | some f =>
      have h3 := h2.push (fun _ _ _ _ => Val.plus hM) (filter_val hM log2 f s
        (fun i hi => r.colLeft i (List.mem_append.2 (.inr hi))) (fun i hi => r.colRight i (List.mem_append.2 (.inr hi))))
      refine (h3.getD Val.one).cast ?_
      simp [optFilterBytes]
  | aggregate group filters ng =>
    have r := h.reads rfl
    have h1 := keyed_val hM group s r.all (fun i hi => r.col i (List.mem_append.2 (.inl hi)))
    exact plusAll_val hM Expr.complexity (evalBytes s.leftCol) (filters.filterMap id)
      (fun e he => exprs_val hM e _ fun i hi => r.col i (List.mem_append.2 (.inr
        (List.mem_flatten.2 ⟨_, List.mem_map_of_mem he, hi⟩)))) h1
  | windowAgg keys => exact keyed_val hM keys s (h.reads rfl).all (h.reads rfl).col
  | boundedWindowAgg keys => exact keyed_val hM keys s (h.reads rfl).all (h.reads rfl).col
  | sortPreservingMerge keys => exact keyed_val hM keys s (h.reads rfl).all (h.reads rfl).col
  | repartition keys => exact keyed_val hM keys s (h.reads rfl).all (h.reads rfl).col
  | filter e => exact (Val.lin ho).plus hM (exprs_val hM e _ (h.reads rfl).col)
  | projection es =>
    have r := h.reads rfl
    have h1 := foldlOpt_val hM Expr.complexity (evalBytes s.leftCol) es
      (fun e he => exprs_val hM e _ fun i hi => r.col i (List.mem_flatten.2 ⟨_, List.mem_map_of_mem he, hi⟩))
      (acc := none) (.inl ⟨rfl, rfl, rfl⟩)
    refine (h1.getD Val.one).cast ?_
    cases es <;> simp [cpuBytes]

theorem memory_val (hM : 2 ≤ M) (op : Node) (stats : Stats) (children : List Stats) (s : Sizes)
    (h : Known M op stats children s) :
    Val M stats.total (children.map Stats.child) (complexityMemory op) (memoryBytes s op) := by
  have ho : linearCost stats.total (children.map Stats.child) .allOutputColumns = some s.out := h.out
  cases op with
  | nestedLoopJoin f => exact Val.lin (h.reads rfl).allLeft
  | crossJoin => exact Val.lin (h.reads rfl).allLeft
  | hashJoin on f => exact Val.lin (h.reads rfl).allLeft
  | symmetricHashJoin on f => exact (Val.lin (h.reads rfl).allLeft).plus hM (Val.lin (h.reads rfl).allRight)
  | sort keys fetch =>
    cases fetch with
    | true => exact Val.lin ho
    | false => exact ((Val.lin (h.reads rfl).all).plus hM (Val.lin (h.reads rfl).all)).cast (by simp [memoryBytes]; omega)
  | aggregate g f ng => cases ng <;> first | exact Val.lin ho | exact Val.one
  | windowAgg keys => exact Val.lin (h.reads rfl).all
  | boundedWindowAgg keys => exact Val.one
  | broadcast k => exact Val.lin ho
  | _ => exact Val.zero

theorem network_val (op : Node) (below : List Node) (stats : Stats) (children : List Stats) (s : Sizes)
    (h : Known M op stats children s) :
    Val M stats.total (children.map Stats.child) (complexityNetwork op below) (networkBytes s below op) := by
  have ho : linearCost stats.total (children.map Stats.child) .allOutputColumns = some s.out := h.out
  cases op with
  | boundary =>
    cases below with
    | nil => exact Val.lin ho
    | cons b bs =>
      cases b with
      | broadcast k => exact (Val.lin ho).mul (Val.const k)
      | _ => exact Val.lin ho
  | _ => exact Val.zero

/-! ### Sorts -/

/-- The formula contains a size. -/
def hasLin : Complexity → Prop
  | .constant _ => False
  | .linear _ => True
  | .log a b | .plus a b | .multiply a b => hasLin a ∨ hasLin b

theorem hasLin_plus {a b : Complexity} (h : hasLin a ∨ hasLin b) : hasLin (a.mkPlus b) := by
  fun_induction Complexity.mkPlus a b with
  | case1 n m => simp [hasLin] at h
  | case2 a k m ih => exact ih (by simpa [hasLin] using h)
  | case3 b h1 h2 =>
    unfold Complexity.mkMultiply
    split
    · simp [hasLin] at h
    · exact .inr (by simpa using h)
  | case4 a b h1 h2 h3 => exact h

theorem hasLin_plusAll (cs : List Complexity) : ∀ {c}, hasLin c → hasLin (plusAll c cs) := by
  induction cs with
  | nil => intro c h; exact h
  | cons x xs ih => intro c h; exact ih (hasLin_plus (.inl h))

theorem mkLog_eq (log2 : Rat → Rat) {a : Complexity} (h : hasLin a) (b : Complexity) : a.mkLog log2 b = .log a b := by
  cases a <;> first | rfl | exact h.elim

/-! ### Words -/

theorem linearCost_le (hout : ∀ n, out = some n → n ≤ M)
    (hins : ∀ c ∈ ins, (∀ n, c.total = some n → n ≤ M) ∧ ∀ k ∈ c.cols, ∀ n, k = some n → n ≤ M) (l : Linear) (n : Nat)
    (h : linearCost out ins l = some n) : n ≤ M := by
  have hd : ∀ c, ins.head? = some c → c ∈ ins := fun c hc => List.mem_of_head? hc
  have hl : ∀ c, ins.getLast? = some c → c ∈ ins := fun c hc => List.mem_of_getLast? hc
  cases l <;> simp only [linearCost, Option.bind_eq_bind, Option.bind_eq_some_iff] at h
  case allOutputColumns => exact hout n h
  all_goals
    obtain ⟨c, hc, h⟩ := h
    first
    | exact (hins c (hd c hc)).1 n h
    | exact (hins c (hl c hc)).1 n h
    | (obtain ⟨k, hk, h⟩ := h
       try simp only [pure, Option.some.injEq] at h
       first
       | exact (hins c (hd c hc)).2 _ (List.mem_of_getElem? hk) n h
       | exact (hins c (hl c hc)).2 _ (List.mem_of_getElem? hk) n h)

theorem andThen_some {x : Except Err (Option Nat)} {f : Nat → Except Err (Option Nat)} {n : Nat}
    (h : andThen x f = .ok (some n)) : ∃ v, x = .ok (some v) ∧ f v = .ok (some n) := by
  rcases x with e | (_ | v)
  · cases h
  · cases h
  · exact ⟨v, rfl, h⟩

theorem cost_le (hout : ∀ n, out = some n → n ≤ M)
    (hins : ∀ c ∈ ins, (∀ n, c.total = some n → n ≤ M) ∧ ∀ k ∈ c.cols, ∀ n, k = some n → n ≤ M) :
    ∀ (c : Complexity) (n : Nat), c.cost M out ins = .ok (some n) → n ≤ M := by
  intro c
  induction c with
  | constant v =>
    intro n h
    simp only [Complexity.cost, castUsize] at h
    cases h
    omega
  | linear l => intro n h; simp only [Complexity.cost, Except.ok.injEq] at h; exact linearCost_le hout hins l n h
  | log a b iha ihb =>
    intro n h
    simp only [Complexity.cost] at h
    obtain ⟨x, ha, h⟩ := andThen_some h
    obtain ⟨y, hb, h⟩ := andThen_some h
    unfold logCost at h
    split at h
    · cases h
    · cases h; omega
  | plus a b iha ihb =>
    intro n h
    simp only [Complexity.cost] at h
    obtain ⟨x, ha, h⟩ := andThen_some h
    obtain ⟨y, hb, h⟩ := andThen_some h
    cases h; omega
  | multiply a b iha ihb =>
    intro n h
    simp only [Complexity.cost] at h
    obtain ⟨x, ha, h⟩ := andThen_some h
    obtain ⟨y, hb, h⟩ := andThen_some h
    cases h; omega

/-- For machine words, a formula with a value costs that value, saturated. -/
theorem Val.cost {op stats children s} (h : Known M op stats children s) {c v}
    (hv : Val M stats.total (children.map Stats.child) c v) :
    c.cost M stats.total (children.map Stats.child) = .ok (some (min v M)) := by
  obtain ⟨_, w, e, e'⟩ := hv
  have : w ≤ M := by
    refine cost_le (fun n hn => (h.words stats (by simp)).1 n hn) ?_ c w e
    intro x hx
    obtain ⟨d, hd, rfl⟩ := List.mem_map.1 hx
    refine ⟨(h.words d (by simp [hd])).1, ?_⟩
    intro k hk n hn
    obtain ⟨j, hj, rfl⟩ := List.mem_map.1 hk
    exact (h.words d (by simp [hd])).2 j hj n hn
  rw [e, ← e', Nat.min_eq_left this]

/-! ### Stages -/

theorem sumKnown_append (a b : List (Option Nat)) (M : Nat) (r : Option Nat)
    (h : sumPrecision true M (sumKnown a) (sumKnown b) = .ok r) : r = sumKnown (a ++ b) := by
  unfold sumKnown at *
  simp only [List.filterMap_append]
  generalize a.filterMap id = x at *
  generalize b.filterMap id = y at *
  by_cases ha : x = [] <;> by_cases hb : y = [] <;>
    simp only [ha, hb, if_true, if_false, sumPrecision] at h
  · cases h; simp [ha, hb]
  · cases h; simp [ha, hb]
  · cases h; simp [ha, hb]
  · split at h
    · cases h
    · cases h; simp [ha]

theorem together_append (M : Nat) (a b : List Cost) (r : Cost) (h : (together a).add true M (together b) = .ok r) :
    r = together (a ++ b) := by
  simp only [Cost.add] at h
  rcases h1 : sumPrecision true M (together a).cpu (together b).cpu with e | x
  · rw [h1] at h; cases h
  rcases h2 : sumPrecision true M (together a).memory (together b).memory with e | y
  · rw [h1, h2] at h; cases h
  rcases h3 : sumPrecision true M (together a).network (together b).network with e | z
  · rw [h1, h2, h3] at h; cases h
  rw [h1, h2, h3] at h
  cases h
  simp only [together, List.map_append]
  rw [sumKnown_append _ _ M x h1, sumKnown_append _ _ M y h2, sumKnown_append _ _ M z h3]

theorem together_one (c : Cost) : together [c] = c := by
  obtain ⟨a, b, d⟩ := c
  cases a <;> cases b <;> cases d <;> simp [together, sumKnown]

mutual
theorem cost_sum (log2 : Rat → Rat) (M : Nat) : ∀ (t : Tree) (c : Cost) (s : Stats), t.cost true log2 M = .ok (c, s) →
    ∃ vs ks, t.visits M = .ok (s, vs) ∧ List.Forall₂ (Charged log2 M) vs ks ∧ c = together ks
  | .node op f types ts, c, s, h => by
    rw [Tree.cost] at h
    rcases h1 : costs true log2 M {} ts with e | ⟨acc, ss⟩
    · rw [h1] at h; cases h
    rw [h1] at h
    replace h : (f ss >>= fun raw => planStatistics M raw types ss >>= fun out =>
      nodeCost log2 M op (ts.map Tree.op) out ss >>= fun new => acc.add true M new >>= fun acc => pure (acc, out)) = .ok (c, s) := h
    rcases h2 : f ss with e | raw
    · rw [h2] at h; cases h
    rcases h3 : planStatistics M raw types ss with e | out
    · rw [h2] at h; replace h : (planStatistics M raw types ss >>= _) = _ := h; rw [h3] at h; cases h
    rcases h4 : nodeCost log2 M op (ts.map Tree.op) out ss with e | new
    · rw [h2] at h; replace h : (planStatistics M raw types ss >>= _) = _ := h
      rw [h3] at h; replace h : (nodeCost log2 M op (ts.map Tree.op) out ss >>= _) = _ := h; rw [h4] at h; cases h
    rcases h5 : acc.add true M new with e | acc'
    · rw [h2] at h; replace h : (planStatistics M raw types ss >>= _) = _ := h
      rw [h3] at h; replace h : (nodeCost log2 M op (ts.map Tree.op) out ss >>= _) = _ := h
      rw [h4] at h; replace h : (acc.add true M new >>= _) = _ := h; rw [h5] at h; cases h
    rw [h2] at h; replace h : (planStatistics M raw types ss >>= _) = _ := h
    rw [h3] at h; replace h : (nodeCost log2 M op (ts.map Tree.op) out ss >>= _) = _ := h
    rw [h4] at h; replace h : (acc.add true M new >>= _) = _ := h
    rw [h5] at h
    cases h
    obtain ⟨vs, ks, hv, hf, hc⟩ := costs_sum log2 M ts {} acc ss [] rfl h1
    refine ⟨vs ++ [⟨op, ts.map Tree.op, s, ss⟩], ks ++ [new], ?_, ?_, ?_⟩
    · rw [Tree.visits, hv]
      show (f ss >>= fun raw => planStatistics M raw types ss >>= fun out => pure (out, _)) = _
      rw [h2]
      show (planStatistics M raw types ss >>= fun out => pure (out, _)) = _
      rw [h3]
      rfl
    · exact List.rel_append hf (.cons h4 .nil)
    · rw [hc, List.nil_append, ← together_one new] at h5
      rw [together_append M _ _ _ h5]
theorem costs_sum (log2 : Rat → Rat) (M : Nat) : ∀ (ts : List Tree) (acc c : Cost) (ss : List Stats) (k0 : List Cost),
    acc = together k0 → costs true log2 M acc ts = .ok (c, ss) →
    ∃ vs ks, visitsAll M ts = .ok (ss, vs) ∧ List.Forall₂ (Charged log2 M) vs ks ∧ c = together (k0 ++ ks)
  | [], acc, c, ss, k0, ha, h => by
    rw [costs] at h
    cases h
    exact ⟨[], [], by rw [visitsAll], .nil, by simpa using ha⟩
  | t :: ts, acc, c, ss, k0, ha, h => by
    rw [costs] at h
    rcases h1 : t.cost true log2 M with e | ⟨c1, s1⟩
    · rw [h1] at h; cases h
    rw [h1] at h
    replace h : (acc.add true M c1 >>= fun acc => costs true log2 M acc ts >>= fun r => pure (r.1, s1 :: r.2)) = .ok (c, ss) := h
    obtain ⟨vs, ks, hv, hf, hc⟩ := cost_sum log2 M t c1 s1 h1
    rcases h2 : acc.add true M c1 with e | acc'
    · rw [h2] at h; cases h
    rw [h2] at h
    replace h : (costs true log2 M acc' ts >>= fun r => pure (r.1, s1 :: r.2)) = .ok (c, ss) := h
    rcases h3 : costs true log2 M acc' ts with e | ⟨c2, ss2⟩
    · rw [h3] at h; cases h
    rw [h3] at h
    cases h
    have ha' : acc' = together (k0 ++ ks) := by
      rw [ha, hc] at h2
      exact together_append M _ _ _ h2
    obtain ⟨vs', ks', hv', hf', hc'⟩ := costs_sum log2 M ts acc' _ ss2 (k0 ++ ks) ha' h3
    refine ⟨vs ++ vs', ks ++ ks', ?_, List.rel_append hf hf', by rw [hc', List.append_assoc]⟩
    rw [visitsAll, hv]
    show (visitsAll M ts >>= fun r => pure (s1 :: r.1, vs ++ r.2)) = _
    rw [hv']
    rfl
end

mutual
theorem visits_ops (M : Nat) : ∀ (t : Tree) s vs, t.visits M = .ok (s, vs) → vs.map (·.op) = t.ops
  | .node op f types ts, s, vs, h => by
    rw [Tree.visits] at h
    rcases h1 : visitsAll M ts with e | ⟨ss, ws⟩
    · rw [h1] at h; cases h
    rw [h1] at h
    replace h : (f ss >>= fun raw => planStatistics M raw types ss >>= fun out => pure (out, ws ++ [⟨op, ts.map Tree.op, out, ss⟩])) = .ok (s, vs) := h
    rcases h2 : f ss with e | raw
    · rw [h2] at h; cases h
    rw [h2] at h
    replace h : (planStatistics M raw types ss >>= fun out => pure (out, ws ++ [⟨op, ts.map Tree.op, out, ss⟩])) = .ok (s, vs) := h
    rcases h3 : planStatistics M raw types ss with e | out
    · rw [h3] at h; cases h
    rw [h3] at h
    cases h
    rw [List.map_append, visitsAll_ops M ts ss ws h1, Tree.ops]
    rfl
theorem visitsAll_ops (M : Nat) : ∀ (ts : List Tree) ss vs, visitsAll M ts = .ok (ss, vs) → vs.map (·.op) = opsAll ts
  | [], ss, vs, h => by rw [visitsAll] at h; cases h; rfl
  | t :: ts, ss, vs, h => by
    rw [visitsAll] at h
    rcases h1 : t.visits M with e | ⟨s, v⟩
    · rw [h1] at h; cases h
    rcases h2 : visitsAll M ts with e | ⟨ss', vs'⟩
    · rw [h1] at h; replace h : (visitsAll M ts >>= _) = _ := h; rw [h2] at h; cases h
    rw [h1] at h; replace h : (visitsAll M ts >>= fun r => pure (s :: r.1, v ++ r.2)) = .ok (ss, vs) := h
    rw [h2] at h
    cases h
    rw [List.map_append, visits_ops M t s v h1, visitsAll_ops M ts ss' vs' h2, opsAll]
end

/-! ### More data -/

theorem SizeNoLess.refl : ∀ a, SizeNoLess a a
  | none => trivial
  | some _ => Nat.le_refl _

theorem SizeNoLess.getD : ∀ {a b : Option Nat} {x y : Nat}, SizeNoLess a b → x ≤ y → a.getD x ≤ b.getD y
  | none, none, _, _, _, h => h
  | some _, some _, _, _, h, _ => h

theorem sum_le {l m : List Nat} (h : List.Forall₂ (· ≤ ·) l m) : l.sum ≤ m.sum := by
  induction h with
  | nil => exact Nat.le_refl _
  | cons hab _ ih => simp only [List.sum_cons]; omega

theorem andThen_mono {x x' : Except Err (Option Nat)} {f f' : Nat → Except Err (Option Nat)}
    (hx : ∀ a b, x = .ok a → x' = .ok b → SizeNoLess a b)
    (hf : ∀ a b, a ≤ b → ∀ u v, f a = .ok u → f' b = .ok v → SizeNoLess u v) :
    ∀ a b, andThen x f = .ok a → andThen x' f' = .ok b → SizeNoLess a b := by
  intro a b h h'
  rcases x with e | (_ | u) <;> rcases x' with e' | (_ | u') <;> simp only [andThen] at h h' <;> try (cases h; done)
  all_goals try (cases h'; done)
  · cases h; cases h'; trivial
  · exact (hx _ _ rfl rfl).elim
  · exact (hx _ _ rfl rfl).elim
  · exact hf _ _ (hx _ _ rfl rfl) a b h h'

/-- The same sizes are known of an input, and none is smaller. -/
structure ChildNoLess (a b : ChildStats) : Prop where
  total : SizeNoLess a.total b.total
  cols : List.Forall₂ SizeNoLess a.cols b.cols

theorem forall₂_getElem? {α β : Type} {R : α → β → Prop} {l : List α} {m : List β} (h : List.Forall₂ R l m) :
    ∀ i : Nat, (l[i]? = none ∧ m[i]? = none) ∨ ∃ a b, l[i]? = some a ∧ m[i]? = some b ∧ R a b := by
  induction h with
  | nil => intro i; exact .inl ⟨by simp, by simp⟩
  | cons hab _ ih =>
    intro i
    cases i with
    | zero => exact .inr ⟨_, _, rfl, rfl, hab⟩
    | succ i => simpa using ih i

theorem forall₂_head? {α β : Type} {R : α → β → Prop} {l : List α} {m : List β} (h : List.Forall₂ R l m) :
    (l.head? = none ∧ m.head? = none) ∨ ∃ a b, l.head? = some a ∧ m.head? = some b ∧ R a b := by
  cases h with
  | nil => exact .inl ⟨rfl, rfl⟩
  | cons hab _ => exact .inr ⟨_, _, rfl, rfl, hab⟩

theorem forall₂_getLast? {α β : Type} {R : α → β → Prop} {l : List α} {m : List β} (h : List.Forall₂ R l m) :
    (l.getLast? = none ∧ m.getLast? = none) ∨ ∃ a b, l.getLast? = some a ∧ m.getLast? = some b ∧ R a b := by
  rw [List.getLast?_eq_getElem?, List.getLast?_eq_getElem?, h.length_eq]
  exact forall₂_getElem? h _

theorem linearCost_mono {out out' : Option Nat} {ins ins' : List ChildStats} (ho : SizeNoLess out out')
    (hi : List.Forall₂ ChildNoLess ins ins') (l : Linear) : SizeNoLess (linearCost out ins l) (linearCost out' ins' l) := by
  have hcol : ∀ (c c' : ChildStats), ChildNoLess c c' → ∀ i : Nat,
      SizeNoLess (do (← c.cols[i]?)) (do (← c'.cols[i]?)) := by
    intro c c' h i
    rcases forall₂_getElem? h.cols i with ⟨e, e'⟩ | ⟨a, b, e, e', hab⟩
    · simp only [e, e']; trivial
    · simp only [e, e']; exact hab
  cases l
  case allOutputColumns => exact ho
  case column i =>
    rcases forall₂_head? hi with ⟨e, e'⟩ | ⟨a, b, e, e', hab⟩ <;> simp only [linearCost, e, e']
    · trivial
    · exact hcol a b hab i
  case columnFromLeft i =>
    rcases forall₂_head? hi with ⟨e, e'⟩ | ⟨a, b, e, e', hab⟩ <;> simp only [linearCost, e, e']
    · trivial
    · exact hcol a b hab i
  case columnFromRight i =>
    rcases forall₂_getLast? hi with ⟨e, e'⟩ | ⟨a, b, e, e', hab⟩ <;> simp only [linearCost, e, e']
    · trivial
    · exact hcol a b hab i
  case allColumns =>
    rcases forall₂_head? hi with ⟨e, e'⟩ | ⟨a, b, e, e', hab⟩ <;> simp only [linearCost, e, e']
    · trivial
    · exact hab.total
  case allColumnsFromLeft =>
    rcases forall₂_head? hi with ⟨e, e'⟩ | ⟨a, b, e, e', hab⟩ <;> simp only [linearCost, e, e']
    · trivial
    · exact hab.total
  case allColumnsFromRight =>
    rcases forall₂_getLast? hi with ⟨e, e'⟩ | ⟨a, b, e, e', hab⟩ <;> simp only [linearCost, e, e']
    · trivial
    · exact hab.total

theorem log2_mono {a b : Nat} (h : a ≤ b) : Nat.log2 a ≤ Nat.log2 b := by
  rcases Nat.eq_zero_or_pos a with rfl | ha
  · simp
  · have hb : b ≠ 0 := by omega
    rw [Nat.le_log2 hb]
    exact Nat.le_trans (Nat.log2_self_le (by omega)) h

theorem cost_mono {out out' : Option Nat} {ins ins' : List ChildStats} (ho : SizeNoLess out out')
    (hi : List.Forall₂ ChildNoLess ins ins') :
    ∀ (c : Complexity) (a b : Option Nat), c.cost M out ins = .ok a → c.cost M out' ins' = .ok b → SizeNoLess a b := by
  intro c
  induction c with
  | constant v => intro a b h h'; cases h; cases h'; exact SizeNoLess.refl _
  | linear l => intro a b h h'; cases h; cases h'; exact linearCost_mono ho hi l
  | log x y ihx ihy =>
    refine andThen_mono ihx fun a b hab => andThen_mono ihy fun u v huv => ?_
    intro r r' h h'
    unfold logCost at h h'
    split at h <;> split at h' <;> cases h <;> cases h'
    exact Nat.mul_le_mul hab (log2_mono huv)
  | plus x y ihx ihy =>
    refine andThen_mono ihx fun a b hab => andThen_mono ihy fun u v huv => ?_
    intro r r' h h'
    cases h; cases h'
    show min _ _ ≤ min _ _
    omega
  | multiply x y ihx ihy =>
    refine andThen_mono ihx fun a b hab => andThen_mono ihy fun u v huv => ?_
    intro r r' h h'
    cases h; cases h'
    have := Nat.mul_le_mul hab huv
    show min _ _ ≤ min _ _
    omega

theorem Stats.NoLess.child {a b : Stats} (h : Stats.NoLess a b) : ChildNoLess a.child b.child := by
  refine ⟨h.total, ?_⟩
  show List.Forall₂ _ (a.cols.map _) (b.cols.map _)
  rw [List.forall₂_map_left_iff, List.forall₂_map_right_iff]
  exact h.cols.imp fun _ _ h => h.bytes

theorem nodeCost_mono (log2 : Rat → Rat) (op : Node) (below : List Node) {s s' : Stats} {cs cs' : List Stats}
    (hs : Stats.NoLess s s') (hc : List.Forall₂ Stats.NoLess cs cs') {k k' : Cost}
    (h : nodeCost log2 M op below s cs = .ok k) (h' : nodeCost log2 M op below s' cs' = .ok k') : Cost.NoLess k k' := by
  have hi : List.Forall₂ ChildNoLess (cs.map Stats.child) (cs'.map Stats.child) := by
    rw [List.forall₂_map_left_iff, List.forall₂_map_right_iff]
    exact hc.imp fun _ _ h => h.child
  unfold nodeCost at h h'
  obtain ⟨a, ha, h⟩ := bind_ok h
  obtain ⟨b, hb, h⟩ := bind_ok h
  obtain ⟨c, hcc, h⟩ := bind_ok h
  obtain ⟨a', ha', h'⟩ := bind_ok h'
  obtain ⟨b', hb', h'⟩ := bind_ok h'
  obtain ⟨c', hcc', h'⟩ := bind_ok h'
  cases h; cases h'
  exact ⟨cost_mono hs.total hi _ _ _ ha ha', cost_mono hs.total hi _ _ _ hb hb', cost_mono hs.total hi _ _ _ hcc hcc'⟩

theorem inheritedRows_mono {r r' : Option Nat} {cs cs' : List Stats} (hr : SizeNoLess r r')
    (hc : List.Forall₂ Stats.NoLess cs cs') {a b : Option Nat} (h : inheritedRows M r cs = .ok a)
    (h' : inheritedRows M r' cs' = .ok b) : SizeNoLess a b := by
  have hl : List.Forall₂ (· ≤ ·) (cs.filterMap (·.rows)) (cs'.filterMap (·.rows)) := by
    clear h h'
    induction hc with
    | nil => exact .nil
    | @cons x y _ _ hab _ ih =>
      have := hab.rows
      rcases hx : x.rows with _ | u <;> rcases hy : y.rows with _ | v <;> rw [hx, hy] at this
      · simpa [hx, hy] using ih
      · exact this.elim
      · exact this.elim
      · simpa [hx, hy] using ⟨this, ih⟩
  rcases r with _ | u <;> rcases r' with _ | v
  · simp only [inheritedRows] at h h'
    generalize cs.filterMap (·.rows) = l at hl h
    generalize cs'.filterMap (·.rows) = l' at hl h'
    cases hl with
    | nil => cases h; cases h'; trivial
    | @cons x y xs ys hab hrest =>
      simp only at h h'
      split at h <;> split at h' <;> cases h <;> cases h'
      have : xs.sum ≤ ys.sum := sum_le hrest
      show (x :: xs).sum ≤ (y :: ys).sum
      simp only [List.sum_cons]
      omega
  · exact hr.elim
  · exact hr.elim
  · cases h; cases h'; exact hr

theorem fillColumns_mono {r r' : Nat} (hr : r ≤ r') {cs cs' : List ColStats} (hc : List.Forall₂ ColStats.NoLess cs cs') :
    ∀ (types : List DataType) {a b}, fillColumns M r types cs = .ok a → fillColumns M r' types cs' = .ok b →
      List.Forall₂ ColStats.NoLess a b := by
  induction hc with
  | nil => intro types a b h h'; cases h; cases h'; exact .nil
  | @cons c c' _ _ hab _ ih =>
    intro types a b h h'
    simp only [fillColumns] at h h'
    obtain ⟨x, hx, h⟩ := bind_ok h
    obtain ⟨xs, hxs, h⟩ := bind_ok h
    obtain ⟨y, hy, h'⟩ := bind_ok h'
    obtain ⟨ys, hys, h'⟩ := bind_ok h'
    cases h; cases h'
    refine .cons ?_ (ih _ hxs hys)
    unfold fillColumn at hx hy
    rcases ht : types.head? with _ | t <;> rw [ht] at hx hy
    · cases hx
    · cases hx; cases hy
      refine ⟨hab.distinct.getD (Nat.div_le_div_right hr), hab.bytes.getD ?_⟩
      have := Nat.mul_le_mul (Nat.le_refl t.defaultBytes) hr
      omega

theorem totalBytes_mono {cs cs' : List ColStats} (hc : List.Forall₂ ColStats.NoLess cs cs') :
    totalBytes M cs ≤ totalBytes M cs' := by
  have key : ∀ a b, a ≤ b → cs.foldl (fun acc c => min (acc + c.bytes.getD 0) M) a
      ≤ cs'.foldl (fun acc c => min (acc + c.bytes.getD 0) M) b := by
    induction hc with
    | nil => intro a b h; exact h
    | @cons c c' _ _ hab _ ih =>
      intro a b h
      refine ih _ _ ?_
      have := hab.bytes.getD (Nat.le_refl 0)
      show min _ _ ≤ min _ _
      omega
  exact key 0 0 (Nat.le_refl 0)

theorem planStatistics_mono {raw raw' : Stats} {types : List DataType} {cs cs' : List Stats} (hr : Stats.NoLess raw raw')
    (hc : List.Forall₂ Stats.NoLess cs cs') {s s' : Stats} (h : planStatistics M raw types cs = .ok s)
    (h' : planStatistics M raw' types cs' = .ok s') : Stats.NoLess s s' := by
  unfold planStatistics at h h'
  obtain ⟨r, hrow, h⟩ := bind_ok h
  obtain ⟨cols, hcols, h⟩ := bind_ok h
  obtain ⟨r', hrow', h'⟩ := bind_ok h'
  obtain ⟨cols', hcols', h'⟩ := bind_ok h'
  cases h; cases h'
  have h1 := inheritedRows_mono hr.rows hc hrow hrow'
  have h2 : List.Forall₂ ColStats.NoLess cols cols' := by
    rcases r with _ | u <;> rcases r' with _ | v
    · cases hcols; cases hcols'; exact hr.cols
    · exact h1.elim
    · exact h1.elim
    · exact fillColumns_mono h1 hr.cols types hcols hcols'
  refine ⟨h1, ?_, h2⟩
  exact hr.total.getD (totalBytes_mono (M := M) h2)

theorem sumPrecision_mono {a a' b b' r r' : Option Nat} (ha : SizeNoLess a a') (hb : SizeNoLess b b')
    (h : sumPrecision true M a b = .ok r) (h' : sumPrecision true M a' b' = .ok r') : SizeNoLess r r' := by
  rcases a with _ | a <;> rcases a' with _ | a' <;> try exact ha.elim
  all_goals rcases b with _ | b <;> rcases b' with _ | b' <;> try exact hb.elim
  · cases h; cases h'; trivial
  · cases h; cases h'; exact hb
  · cases h; cases h'; exact ha
  · simp only [sumPrecision, if_true] at h h'
    split at h <;> split at h' <;> cases h <;> cases h'
    exact Nat.add_le_add ha hb

theorem Cost.add_mono {a a' b b' r r' : Cost} (ha : Cost.NoLess a a') (hb : Cost.NoLess b b')
    (h : a.add true M b = .ok r) (h' : a'.add true M b' = .ok r') : Cost.NoLess r r' := by
  unfold Cost.add at h h'
  obtain ⟨x, hx, h⟩ := bind_ok h
  obtain ⟨y, hy, h⟩ := bind_ok h
  obtain ⟨z, hz, h⟩ := bind_ok h
  obtain ⟨x', hx', h'⟩ := bind_ok h'
  obtain ⟨y', hy', h'⟩ := bind_ok h'
  obtain ⟨z', hz', h'⟩ := bind_ok h'
  cases h; cases h'
  exact ⟨sumPrecision_mono ha.cpu hb.cpu hx hx', sumPrecision_mono ha.memory hb.memory hy hy',
    sumPrecision_mono ha.network hb.network hz hz'⟩

theorem ops_eq {t u : Tree} (h : Tree.NoLess t u) : t.op = u.op := by cases h; rfl

mutual
theorem tree_mono (log2 : Rat → Rat) (M : Nat) : ∀ (t u : Tree), Tree.NoLess t u → ∀ {c c' s s'},
    t.cost true log2 M = .ok (c, s) → u.cost true log2 M = .ok (c', s') → Cost.NoLess c c' ∧ Stats.NoLess s s'
  | .node op f types ts, u, hn, c, c', s, s', h, h' => by
    cases hn with
    | node hf hlen hch =>
      rename_i g us
      rw [Tree.cost] at h h'
      obtain ⟨⟨acc, ss⟩, h1, h⟩ := bind_ok h
      obtain ⟨raw, h2, h⟩ := bind_ok h
      obtain ⟨out, h3, h⟩ := bind_ok h
      obtain ⟨new, h4, h⟩ := bind_ok h
      obtain ⟨acc2, h5, h⟩ := bind_ok h
      obtain ⟨⟨acc', ss'⟩, h1', h'⟩ := bind_ok h'
      obtain ⟨raw', h2', h'⟩ := bind_ok h'
      obtain ⟨out', h3', h'⟩ := bind_ok h'
      obtain ⟨new', h4', h'⟩ := bind_ok h'
      obtain ⟨acc2', h5', h'⟩ := bind_ok h'
      cases h; cases h'
      obtain ⟨k1, k2⟩ := costs_mono log2 M ts us hlen hch (a := {}) (a' := {}) ⟨True.intro, True.intro, True.intro⟩ h1 h1'
      have k3 := planStatistics_mono (hf _ _ _ _ k2 h2 h2') k2 h3 h3'
      have hops : ts.map Tree.op = us.map Tree.op := by
        apply List.ext_getElem?
        intro i
        simp only [List.getElem?_map]
        rcases ht : ts[i]? with _ | t
        · have : us[i]? = none := by rw [List.getElem?_eq_none_iff] at ht ⊢; omega
          rw [this]
        · have hi : i < us.length := by rw [← hlen]; exact (List.getElem?_eq_some_iff.1 ht).1
          have hu := List.getElem?_eq_getElem hi
          rw [hu]
          simp only [Option.map_some]
          rw [ops_eq (hch i t _ ht hu)]
      rw [hops] at h4
      exact ⟨Cost.add_mono k1 (nodeCost_mono log2 op _ k3 k2 h4 h4') h5 h5', k3⟩
theorem costs_mono (log2 : Rat → Rat) (M : Nat) : ∀ (ts us : List Tree), ts.length = us.length →
    (∀ (i : Nat) t u, ts[i]? = some t → us[i]? = some u → Tree.NoLess t u) → ∀ {a a' c c' ss ss'}, Cost.NoLess a a' →
    costs true log2 M a ts = .ok (c, ss) → costs true log2 M a' us = .ok (c', ss') →
      Cost.NoLess c c' ∧ List.Forall₂ Stats.NoLess ss ss'
  | [], us, hlen, hch, a, a', c, c', ss, ss', ha, h, h' => by
    cases us with
    | cons _ _ => cases hlen
    | nil => rw [costs] at h h'; cases h; cases h'; exact ⟨ha, .nil⟩
  | t :: ts, us, hlen, hch, a, a', c, c', ss, ss', ha, h, h' => by
    cases us with
    | nil => cases hlen
    | cons u us =>
      rw [costs] at h h'
      obtain ⟨⟨c1, s1⟩, h1, h⟩ := bind_ok h
      obtain ⟨acc, h2, h⟩ := bind_ok h
      obtain ⟨⟨c2, ss2⟩, h3, h⟩ := bind_ok h
      obtain ⟨⟨c1', s1'⟩, h1', h'⟩ := bind_ok h'
      obtain ⟨acc', h2', h'⟩ := bind_ok h'
      obtain ⟨⟨c2', ss2'⟩, h3', h'⟩ := bind_ok h'
      cases h; cases h'
      obtain ⟨k1, k2⟩ := tree_mono log2 M t u (hch 0 t u rfl rfl) h1 h1'
      obtain ⟨k3, k4⟩ := costs_mono log2 M ts us (by simpa using hlen) (fun i x y hx hy => hch (i + 1) x y hx hy)
        (Cost.add_mono ha k1 h2 h2') h3 h3'
      exact ⟨k3, .cons k2 k4⟩
end

/-! ### Filled statistics -/

theorem inheritedRows_eq {rows r : Option Nat} {children : List Stats} (h : inheritedRows M rows children = .ok r) :
    r = rows.or (sumKnown (children.map (·.rows))) := by
  cases rows with
  | some x => cases h; rfl
  | none =>
    simp only [inheritedRows] at h
    simp only [sumKnown, List.filterMap_map, Function.id_comp]
    generalize children.filterMap (·.rows) = l at h
    cases l with
    | nil => cases h; rfl
    | cons x xs =>
      simp only at h
      split at h
      · cases h
      · cases h; rfl

theorem fillColumns_get {r : Nat} : ∀ (cs : List ColStats) (types : List DataType) {ds : List ColStats},
    fillColumns M r types cs = .ok ds → ds.length = cs.length ∧ ∀ (i : Nat) c, cs[i]? = some c →
      ∃ t, types[i]? = some t ∧ ∃ d, ds[i]? = some d ∧ d.bytes = some (c.bytes.getD (min (t.defaultBytes * r) M))
  | [], types, ds, h => by cases h; exact ⟨rfl, by simp⟩
  | c :: cs, types, ds, h => by
    simp only [fillColumns] at h
    obtain ⟨x, hx, h⟩ := bind_ok h
    obtain ⟨xs, hxs, h⟩ := bind_ok h
    cases h
    obtain ⟨h1, h2⟩ := fillColumns_get cs types.tail hxs
    refine ⟨by simp [h1], ?_⟩
    intro i d hd
    cases i with
    | zero =>
      cases hd
      unfold fillColumn at hx
      rcases ht : types.head? with _ | t <;> rw [ht] at hx <;> cases hx
      exact ⟨t, by rw [← List.head?_eq_getElem?]; exact ht, _, rfl, rfl⟩
    | succ i =>
      obtain ⟨t, ht, d', hd', e⟩ := h2 i d hd
      exact ⟨t, by simpa using ht, d', by simpa using hd', e⟩

/-! ### Release builds -/

theorem sumPrecision_release {a b r : Option Nat} (h : sumPrecision true M a b = .ok r) : sumPrecision false M a b = .ok r := by
  rcases a with _ | a <;> rcases b with _ | b <;> try exact h
  simp only [sumPrecision] at h ⊢
  split at h
  · cases h
  · rename_i hle
    rw [if_neg hle]; exact h

theorem add_release {a b r : Cost} (h : a.add true M b = .ok r) : a.add false M b = .ok r := by
  unfold Cost.add at h
  obtain ⟨x, hx, h⟩ := bind_ok h
  obtain ⟨y, hy, h⟩ := bind_ok h
  obtain ⟨z, hz, h⟩ := bind_ok h
  unfold Cost.add
  rw [sumPrecision_release hx, sumPrecision_release hy, sumPrecision_release hz]
  exact h

mutual
theorem cost_release (log2 : Rat → Rat) (M : Nat) : ∀ (t : Tree) {r}, t.cost true log2 M = .ok r → t.cost false log2 M = .ok r
  | .node op f types ts, r, h => by
    rw [Tree.cost] at h
    obtain ⟨⟨acc, ss⟩, h1, h⟩ := bind_ok h
    obtain ⟨raw, h2, h⟩ := bind_ok h
    obtain ⟨out, h3, h⟩ := bind_ok h
    obtain ⟨new, h4, h⟩ := bind_ok h
    obtain ⟨acc2, h5, h⟩ := bind_ok h
    rw [Tree.cost, costs_release log2 M ts _ h1]
    simp only [bind, Except.bind, h2, h3, h4, add_release h5]
    exact h
theorem costs_release (log2 : Rat → Rat) (M : Nat) : ∀ (ts : List Tree) (a : Cost) {r},
    costs true log2 M a ts = .ok r → costs false log2 M a ts = .ok r
  | [], a, r, h => by rw [costs] at h ⊢; exact h
  | t :: ts, a, r, h => by
    rw [costs] at h
    obtain ⟨⟨c1, s1⟩, h1, h⟩ := bind_ok h
    obtain ⟨acc, h2, h⟩ := bind_ok h
    obtain ⟨⟨c2, ss2⟩, h3, h⟩ := bind_ok h
    rw [costs, cost_release log2 M t h1]
    simp only [bind, Except.bind, add_release h2, costs_release log2 M ts _ h3]
    exact h
end

/-! ### Known costs -/

theorem planStatistics_total {raw s : Stats} {types : List DataType} {cs : List Stats}
    (h : planStatistics M raw types cs = .ok s) : s.total.isSome := by
  unfold planStatistics at h
  obtain ⟨r, hrow, h⟩ := bind_ok h
  obtain ⟨cols, hcols, h⟩ := bind_ok h
  cases h
  rfl

theorem visits_leaf {t : Tree} (ht : t.Grounded) : ∀ {s vs}, t.visits M = .ok (s, vs) →
    ∃ v ∈ vs, v.op.isLeaf = true ∧ v.stats.total.isSome := by
  induction ht with
  | leaf hop =>
    intro s vs h
    rw [Tree.visits] at h
    obtain ⟨⟨ss, ws⟩, h1, h⟩ := bind_ok h
    obtain ⟨raw, h2, h⟩ := bind_ok h
    obtain ⟨out, h3, h⟩ := bind_ok h
    cases h
    exact ⟨_, List.mem_append.2 (.inr (List.mem_singleton.2 rfl)), hop, planStatistics_total h3⟩
  | inner _ ih =>
    intro s vs h
    rw [Tree.visits] at h
    obtain ⟨⟨ss, ws⟩, h1, h⟩ := bind_ok h
    obtain ⟨raw, h2, h⟩ := bind_ok h
    obtain ⟨out, h3, h⟩ := bind_ok h
    rw [visitsAll] at h1
    obtain ⟨⟨s1, w1⟩, h4, h1⟩ := bind_ok h1
    obtain ⟨⟨ss2, w2⟩, h5, h1⟩ := bind_ok h1
    cases h; cases h1
    obtain ⟨v, hv, hl, hs⟩ := ih h4
    exact ⟨v, by simp [hv], hl, hs⟩

theorem leaf_charged (log2 : Rat → Rat) {v : Visit} {k : Cost} (hl : v.op.isLeaf = true) (hs : v.stats.total.isSome)
    (h : Charged log2 M v k) : k.cpu.isSome := by
  unfold Charged nodeCost at h
  obtain ⟨a, ha, h⟩ := bind_ok h
  obtain ⟨b, hb, h⟩ := bind_ok h
  obtain ⟨c, hc, h⟩ := bind_ok h
  cases h
  rcases hop : v.op with _ | _ | _ | _ | _ | _ | _ | _ | _ | _ | _ | _ | _ | _ | _ | _ | _ | _ | _ | _ | _ <;>
    rw [hop] at hl ha <;> first | (cases hl; done) | skip
  all_goals
    simp only [complexityCpu, Complexity.cost, linearCost, Except.ok.injEq] at ha
    subst ha
    first | exact hs | rfl

theorem sumKnown_isSome {l : List (Option Nat)} {x : Option Nat} (hx : x ∈ l) (h : x.isSome) : (sumKnown l).isSome := by
  obtain ⟨n, rfl⟩ := Option.isSome_iff_exists.1 h
  unfold sumKnown
  rw [if_neg]
  · rfl
  · intro e
    have : n ∈ l.filterMap id := List.mem_filterMap.2 ⟨some n, hx, rfl⟩
    rw [e] at this
    cases this

end DD.StageCost
