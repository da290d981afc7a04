/-
**C92** Planning a query ends.
-/
import Verif.Spec.PlanEnds
import Verif.Props.Placed

namespace DD.Tree.Create

open DD.Tree DD.Tree.Rec

variable {Row : Type} {env : Env Row}

/-! ### Computations that end -/

theorem Ends.const {α : Type} {r : M α} (h : r ≠ .error none) : Ends fun _ => r := ⟨0, r, h, fun _ _ => rfl⟩

theorem Ends.bind {α β : Type} {f : Nat → M α} {g : Nat → α → M β} (hf : Ends f) (hg : ∀ a, Ends fun m => g m a) :
    Ends fun m => f m >>= g m := by
  obtain ⟨n, r, hr, h⟩ := hf
  match r, hr, h with
  | .error e, hr, h =>
    refine ⟨n, .error e, fun e' => hr (by cases e'; rfl), fun m hm => ?_⟩
    show f m >>= g m = _
    rw [h m hm]; rfl
  | .ok a, _, h =>
    obtain ⟨n', r', hr', h'⟩ := hg a
    refine ⟨max n n', r', hr', fun m hm => ?_⟩
    show f m >>= g m = _
    rw [h m (by omega)]
    exact h' m (by omega)

theorem Ends.congr {α : Type} {f g : Nat → M α} (h : ∀ m, f m = g m) (hf : Ends f) : Ends g := by
  obtain ⟨n, r, hr, hf⟩ := hf
  exact ⟨n, r, hr, fun m hm => by rw [← h m]; exact hf m hm⟩

theorem Ends.deeper {α : Type} {f g : Nat → M α} (h : ∀ m, g (m + 1) = f m) (hf : Ends f) : Ends g := by
  obtain ⟨n, r, hr, hf⟩ := hf
  refine ⟨n + 1, r, hr, fun m hm => ?_⟩
  match m, hm with
  | m + 1, hm => rw [h m]; exact hf m (by omega)

theorem ends_each {f : Plan Row → Nat → Unit → M (Tr Row × Unit)} : ∀ (cs : List (Plan Row)) (arg : Nat → Nat) (s : Unit),
    (∀ c ∈ cs, ∀ T s, Ends fun m => down f m c T s) → Ends fun m => eachUntilStop (down f m) arg s cs
  | [], _, s, _ => .const (r := .ok ([], false, s)) (by simp)
  | c :: cs, arg, s, h => by
    refine Ends.congr (fun m => (eachUntilStop.eq_2 (down f m) arg s c cs).symm) ?_
    refine Ends.bind (h c (by simp) _ _) fun a => ?_
    by_cases ha : a.1.tnr = .stop
    · simp only [if_pos ha]
      exact .const (by simp)
    · simp only [if_neg ha]
      exact Ends.bind (ends_each cs _ _ fun c hc => h c (List.mem_cons_of_mem _ hc)) fun b => .const (by simp)

theorem ends_visited {f : Plan Row → Nat → Unit → M (Tr Row × Unit)} {p : Plan Row} {T : Nat} {s : Unit}
    (h0 : f p T s ≠ .error none)
    (h : ∀ r s', f p T s = .ok (r, s') → ∀ c ∈ r.data.children, ∀ T s, Ends fun m => down f m c T s) :
    Ends fun m => down f m p T s := by
  refine Ends.deeper (fun m => down.eq_2 f p T s m) ?_
  match hv : f p T s, h0 with
  | .error e, h0 => exact .const (r := .error e) fun e' => h0 (by cases e'; rfl)
  | .ok (r, s'), _ =>
    have hb : ∀ g : Tr Row × Unit → M (Tr Row × Unit), ((Except.ok (r, s') : M (Tr Row × Unit)) >>= g) = g (r, s') := fun _ => rfl
    simp only [hb]
    cases r.tnr with
    | stop => exact .const (r := .ok (r, s')) (by simp)
    | jump => exact .const (r := .ok (({ data := r.data, tnr := .cont } : Tr Row), s')) (by simp)
    | cont => exact Ends.bind (ends_each _ _ _ fun c hc => h r s' hv c hc) fun b => .const (by simp)

/-! ### Scaling leaves up -/

theorem scaleVisit_ne (p : Plan Row) (T : Nat) (s : Unit) : scaleVisit env p T s ≠ .error none := by
  unfold scaleVisit
  split
  · simp
  · split <;> simp

/-- If scaling up the leaves of a plan ends, so does scaling up the plan. -/
theorem scale_ends_of_leaves : ∀ p : Plan Row, (∀ x, LeafIn x p → ∀ T s, Ends fun m => down (scaleVisit env) m x T s) →
    ∀ T s, Ends fun m => down (scaleVisit env) m p T s
  | .node k tc [], h, T, s => h _ .self T s
  | .node k tc (c :: cs), h, T, s => by
    refine ends_visited (scaleVisit_ne _ _ _) fun r s' hr x hx => ?_
    have e : scaleVisit env (.node k tc (c :: cs)) T s = .ok (⟨.node k tc (c :: cs), .cont⟩, s) := rfl
    rw [e] at hr
    cases hr
    have hx : x ∈ c :: cs := hx
    exact scale_ends_of_leaves x fun y hy => h y (.child hx hy)
termination_by p => sizeOf p
decreasing_by
  have := List.sizeOf_lt_of_mem hx
  simp only [Plan.node.sizeOf_spec] at *
  omega

theorem scale_leaf_ends {rank : Plan Row → Nat} (hp : Progress env rank) (n : Nat) : ∀ l : Plan Row, l.children = [] → rank l ≤ n →
    ∀ T s, Ends fun m => down (scaleVisit env) m l T s := by
  induction n using Nat.strongRecOn with
  | ind n ih =>
    intro l hl hn T s
    refine ends_visited (scaleVisit_ne _ _ _) fun r s' hr x hx => ?_
    unfold scaleVisit at hr
    rw [if_neg (by simp [hl])] at hr
    split at hr
    · cases hr
      rw [show Tr.data ⟨l, .cont⟩ = l from rfl, hl] at hx
      cases hx
    · cases hr
    · rename_i p' hs
      cases hr
      rcases hp l T p' hl hs with h | h
      · rw [show Tr.data ⟨p', .cont⟩ = p' from rfl, h] at hx
        cases hx
      · refine scale_ends_of_leaves x fun y hy => ?_
        have hy' : LeafIn y p' := by
          cases p' with
          | node k tc cs => exact .child hx hy
        have hlt := h y hy'
        refine ih (rank y) (by omega) y ?_ (Nat.le_refl _)
        clear hlt hy' hx
        induction hy with
        | self => rfl
        | child _ _ ih => exact ih

theorem scale_ends {rank : Plan Row → Nat} (hp : Progress env rank) (p : Plan Row) : Ends fun m => scaleLeaves env m p := by
  have h := scale_ends_of_leaves p (fun x hx => scale_leaf_ends hp _ x (by
    induction hx with
    | self => rfl
    | child _ _ ih => exact ih) (Nat.le_refl _)) 1 ()
  have h2 : Ends fun m => (downTaskCount (scaleVisit env) m p 1 ()) >>= fun r => (Except.ok r.1.data : M (Plan Row)) := by
    obtain ⟨n, r, hr, h⟩ := h
    match r, hr, h with
    | .error e, hr, h =>
      refine ⟨n, .error e, fun e' => hr (by cases e'; rfl), fun m hm => ?_⟩
      have h1 := C26_down (scaleVisit env) m p 1 ()
      rw [show down (scaleVisit env) m p 1 () = _ from h m hm] at h1
      match hd : downTaskCount (scaleVisit env) m p 1 (), h1 with
      | .error e1, h1 => cases h1; show downTaskCount (scaleVisit env) m p 1 () >>= _ = _; rw [hd]; rfl
    | .ok a, _, h =>
      refine ⟨n, .ok a.1.data, by simp, fun m hm => ?_⟩
      have h1 := C26_down (scaleVisit env) m p 1 ()
      rw [show down (scaleVisit env) m p 1 () = _ from h m hm] at h1
      match hd : downTaskCount (scaleVisit env) m p 1 (), h1 with
      | .ok b, h1 => cases h1; show downTaskCount (scaleVisit env) m p 1 () >>= _ = _; rw [hd]; rfl
  exact h2

theorem lift_ne {α : Type} (x : Except Err α) : lift x ≠ .error none := by
  cases x <;> simp [lift]

theorem update_ends {f : Nat → Plan Row → M (Plan Row)} (hf : ∀ p, Ends fun m => f m p) : ∀ p : Phys Row, Ends fun m => p.update (f m)
  | .plan p => Ends.bind (hf p) fun q => .const (by simp)
  | .distributed p => Ends.bind (update_ends hf p) fun q => .const (by simp)
  | .analyze p => Ends.bind (update_ends hf p) fun q => .const (by simp)
  | .distAnalyze p => Ends.bind (update_ends hf p) fun q => .const (by simp)

theorem prepareUser_ends {rank : Plan Row → Nat} (hp : Progress env rank) (p : Plan Row) : Ends fun m => prepareUser env m p :=
  Ends.bind (scale_ends hp p) fun _ => Ends.bind (.const (lift_ne _)) fun _ => .const (by simp)

/-- **C92** Planning ends, with a plan or with an error, for every plan, with or without boundaries placed by the user and below
`EXPLAIN ANALYZE` or not, if the scale-up handlers get somewhere: what they make of a leaf is a leaf, or it has only leaves that
they are closer to being done with, by whatever measure. -/
theorem C92_planning_ends_partial {rank : Plan Row → Nat} (hp : Progress env rank) (dyn : Bool) (p : Phys Row) :
    Ends fun depth => create env dyn depth p := by
  have user : ∀ p : Phys Row, Ends fun m => p.update (prepareUser env m) >>= fun q =>
      if (!q.hasNet) = true then (.ok q : M (Phys Row)) else .ok (Phys.distributed q) := fun p => by
    refine Ends.bind (update_ends (prepareUser_ends hp) p) fun q => .const ?_
    split <;> simp
  match p with
  | .distributed p => exact .const (r := .ok (Phys.distributed p)) (by simp)
  | .analyze p =>
    refine Ends.bind (C92_planning_ends_partial hp dyn p) fun q => .const ?_
    cases q <;> simp
  | .distAnalyze p =>
    refine Ends.congr (fun m => (create.eq_4 env dyn m (.distAnalyze p) (by simp) (by simp) (by simp)).symm) ?_
    by_cases hn : (Phys.distAnalyze p).hasNet = true
    · simp only [if_pos hn]; exact user _
    · simp only [if_neg hn]; exact .const (by simp)
  | .plan p =>
    refine Ends.congr (fun m => (create.eq_3 env dyn m p).symm) ?_
    by_cases hn : (Phys.plan p).hasNet = true
    · simp only [if_pos hn]; exact user _
    · simp only [if_neg hn]
      cases dyn
      · refine Ends.bind (.const (lift_ne _)) fun q => .const ?_
        cases q <;> simp
      · exact Ends.bind (.const (lift_ne _)) fun q => .const (by simp)

/-- **C92** (without boundaries) A plan without boundaries placed by the user is planned at once, whatever the handlers do: leaves are
scaled up on the way up. -/
theorem C92_automatic_planning_ends (dyn : Bool) {p : Plan Row} (hn : hasNet p = false) :
    ∃ r, r ≠ .error none ∧ ∀ depth, create env dyn depth (.plan p) = r := by
  refine ⟨create env dyn 0 (.plan p), ?_, fun depth => ?_⟩
  · rw [create.eq_3, if_neg (by simp [Phys.hasNet, hn])]
    cases dyn
    · simp only [Bool.false_eq_true, if_false]
      match h : lift (plan env p), lift_ne (plan env p) with
      | .ok none, _ => exact fun e => by cases e
      | .ok (some q), _ => exact fun e => by cases e
      | .error e, h0 => exact fun e' => h0 (by cases e'; rfl)
    · simp only [if_true]
      match h : lift (preparePlan env p), lift_ne (preparePlan env p) with
      | .ok q, _ => exact fun e => by cases e
      | .error e, h0 => exact fun e' => h0 (by cases e'; rfl)
  · have h1 : ¬ (Phys.plan p).hasNet = true := by simp [Phys.hasNet, hn]
    rw [create.eq_3, create.eq_3, if_neg h1, if_neg h1]

/-! ### Handlers that put something above the leaf -/

namespace Demo

open DD.Tree.Demo

/-- A session whose scale-up handler puts a filter above every scan. -/
def filters : Env (Nat × Nat) := { sess with
  scale := fun p _ => match p with
    | .node (.leaf ps) tc cs => some (.ok (fresh keep [.node (.leaf ps) tc cs]))
    | _ => none }

theorem filters_above {k : Kind (Nat × Nat)} {tc : TaskCount} {c : Plan (Nat × Nat)}
    (h : ∀ (m T : Nat) (s : Unit), down (scaleVisit filters) m c T s = .error none) :
    ∀ (m T : Nat) (s : Unit), down (scaleVisit filters) m (.node k tc [c]) T s = .error none
  | 0, _, _ => rfl
  | m + 1, T, s => by
    have e : eachUntilStop (down (scaleVisit filters) m) (childCount k T) s [c] = .error none := by
      rw [eachUntilStop, h m _ s]; rfl
    show (eachUntilStop (down (scaleVisit filters) m) (childCount k T) s [c] >>= _) = _
    rw [e]; rfl

theorem filters_leaf (ps : List (List (Nat × Nat))) (tc : TaskCount) : ∀ (m T : Nat) (s : Unit),
    down (scaleVisit filters) m (.node (.leaf ps) tc []) T s = .error none
  | 0, _, _ => rfl
  | m + 1, T, s => by
    have e : eachUntilStop (down (scaleVisit filters) m) (childCount keep T) s [.node (.leaf ps) tc []] = .error none := by
      rw [eachUntilStop, filters_leaf ps tc m _ s]; rfl
    show (eachUntilStop (down (scaleVisit filters) m) (childCount keep T) s [.node (.leaf ps) tc []] >>= _) = _
    rw [e]; rfl

end Demo

/-- **C92 is false** of handlers that put something above the leaf they are asked about, such as a filter that picks the rows of a
task: the traversal goes on below what they return, finds the leaf again, and asks again. Planning a query with boundaries placed
by the user never ends; the same query without them is planned and distributed in the same session. -/
theorem C92_filter_above_leaf_false (dyn : Bool) (n m : Nat) :
    NeverEnds (fun depth => create Demo.filters dyn depth (.plan (Demo.userSum n m)))
    ∧ ∃ q, ∀ depth, create Demo.filters false depth (.plan (twoStep Demo.sum id 2 Demo.big)) = .ok (.distributed (.plan q)) := by
  refine ⟨fun depth => ?_, ?_⟩
  · have h : ∀ (m' T : Nat) (s : Unit), down (scaleVisit Demo.filters) m' (Demo.userSum n m) T s = .error none := by
      unfold Demo.userSum fresh
      repeat apply Demo.filters_above
      exact Demo.filters_leaf _ _
    have h1 := C26_down (scaleVisit Demo.filters) depth (Demo.userSum n m) 1 ()
    rw [h] at h1
    have h2 : scaleLeaves Demo.filters depth (Demo.userSum n m) = .error none := by
      unfold scaleLeaves
      match hd : downTaskCount (scaleVisit Demo.filters) depth (Demo.userSum n m) 1 (), h1 with
      | .error e1, h1 => cases h1; rfl
    show create Demo.filters dyn depth (.plan (Demo.userSum n m)) = .error none
    rw [create.eq_3, if_pos (show (Phys.plan (Demo.userSum n m)).hasNet = true from rfl)]
    simp only [Phys.update, prepareUser, h2]
    rfl
  · obtain ⟨p', hp⟩ := planned_of (env := Demo.filters) (p := twoStep Demo.sum id 2 Demo.big) (by decide +kernel)
    refine ⟨p', fun depth => ?_⟩
    rw [create.eq_3, if_neg (by decide +kernel)]
    simp only [Bool.false_eq_true, if_false, hp]
    rfl

/-! ### The theorems apply -/

/-- Sessions whose handlers make leaves of leaves get somewhere, by any measure. -/
theorem ScalesToLeaf.progress (h : ScalesToLeaf env) : Progress env fun _ => 0 := fun _ _ _ _ e => .inl (h _ _ _ e).1

/-- Planning the aggregation with boundaries placed by the user ends. -/
example (dyn : Bool) : Ends fun depth => create Demo.sess dyn depth (.plan (Demo.userSum 3 2)) :=
  C92_planning_ends_partial Demo.sess_scales.progress dyn _

/-- A handler that puts a filter above the scan and marks the scan as done. -/
def Demo.once : Env (Nat × Nat) := { DD.Tree.Demo.sess with
  scale := fun p T => match p with
    | .node (.leaf ps) tc _ => some (.ok (fresh DD.Tree.Demo.keep [.node (.distLeaf ps (DD.Tree.Demo.scaled ps T)) tc []]))
    | _ => none }

/-- It gets somewhere: scans that are done rank lower. -/
example : Progress Demo.once fun p => match p with | .node (.leaf _) _ _ => 1 | _ => 0 := by
  intro l T p' _ e
  cases l with
  | node k tc cs =>
    cases k
    case leaf ps =>
      cases e
      refine .inr fun x hx => ?_
      cases hx with
      | child hc hx =>
        simp only [List.mem_singleton] at hc
        subst hc
        cases hx with
        | self => exact Nat.zero_lt_one
        | child hc => cases hc
    all_goals cases e

end DD.Tree.Create
