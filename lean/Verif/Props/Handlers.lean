import Verif.Model.Handlers
import Verif.Lemmas.Lists
import Mathlib.Data.Nat.ModEq
/-
C48: event handler order. C43: default routing.
-/
namespace DD
open HandlerChain

/-! ## C48 -/

/-- Custom handlers of a registration history, in registration order. -/
def customRegs {H} (rs : List (Reg H)) : List H := rs.filterMap fun | .custom h => some h | .builtin _ => none
def builtinRegs {H} (rs : List (Reg H)) : List H := rs.filterMap fun | .builtin h => some h | .custom _ => none

theorem ofRegs_eq {H} (rs : List (Reg H)) : (ofRegs rs).custom = customRegs rs ∧ (ofRegs rs).builtin = builtinRegs rs := by
  have : ∀ (rs : List (Reg H)) (c : HandlerChain H), (rs.foldl register c).custom = c.custom ++ customRegs rs ∧
      (rs.foldl register c).builtin = c.builtin ++ builtinRegs rs := by
    intro rs
    induction rs with
    | nil => intro c; simp [customRegs, builtinRegs]
    | cons r rs ih =>
      intro c
      rw [List.foldl_cons]
      obtain ⟨h1, h2⟩ := ih (c.register r)
      rw [h1, h2]
      cases r <;> simp [register, customRegs, builtinRegs]
  simpa [ofRegs] using this rs {}

/-- **C48** Whatever was registered in whatever order: a decision event is answered with `t` exactly when some custom
handler answers `t` and all custom handlers registered before it decline, or all custom handlers decline, some built-in
handler answers `t`, and the built-in ones registered before it decline. -/
theorem C48_first_answer_wins {H T} (rs : List (Reg H)) (f : H → Option T) (t : T) :
    (ofRegs rs).findMap f = some t ↔
      (∃ pre h post, customRegs rs = pre ++ h :: post ∧ f h = some t ∧ ∀ g ∈ pre, f g = none) ∨
      ((∀ g ∈ customRegs rs, f g = none) ∧
        ∃ pre h post, builtinRegs rs = pre ++ h :: post ∧ f h = some t ∧ ∀ g ∈ pre, f g = none) := by
  obtain ⟨h1, h2⟩ := ofRegs_eq rs
  unfold findMap
  rw [h1, h2]
  cases hc : (customRegs rs).findSome? f with
  | none =>
    simp only
    rw [List.findSome?_eq_none_iff] at hc
    rw [List.findSome?_eq_some_iff]
    constructor
    · rintro ⟨l₁, a, l₂, e, ha, hl⟩
      exact Or.inr ⟨hc, l₁, a, l₂, e, ha, hl⟩
    · rintro (⟨pre, h, post, e, ha, _⟩ | ⟨_, l₁, a, l₂, e, ha, hl⟩)
      · have := hc h (by rw [e]; simp)
        rw [this] at ha; simp at ha
      · exact ⟨l₁, a, l₂, e, ha, hl⟩
  | some r =>
    simp only
    obtain ⟨l₁, a, l₂, e, ha, hl⟩ := List.findSome?_eq_some_iff.mp hc
    constructor
    · intro hr
      cases hr
      exact Or.inl ⟨l₁, a, l₂, e, ha, hl⟩
    · rintro (⟨pre, h, post, e', ha', hpre⟩ | ⟨hall, _⟩)
      · have : (customRegs rs).findSome? f = some t := by
          rw [List.findSome?_eq_some_iff]; exact ⟨pre, h, post, e', ha', hpre⟩
        rw [hc] at this; exact this
      · have := hall a (by rw [e]; simp)
        rw [this] at ha; simp at ha

/-- **C48** An event no handler answers stays unanswered. -/
theorem C48_unanswered {H T} (rs : List (Reg H)) (f : H → Option T) :
    (ofRegs rs).findMap f = none ↔ ∀ g ∈ customRegs rs ++ builtinRegs rs, f g = none := by
  obtain ⟨h1, h2⟩ := ofRegs_eq rs
  unfold findMap
  rw [h1, h2]
  simp only [List.mem_append]
  cases hc : (customRegs rs).findSome? f with
  | none =>
    rw [List.findSome?_eq_none_iff] at hc
    simp only
    rw [List.findSome?_eq_none_iff]
    exact ⟨fun h g hg => hg.elim (hc g) (h g), fun h g hg => h g (Or.inr hg)⟩
  | some r =>
    simp only [reduceCtorEq, false_iff]
    obtain ⟨l₁, a, l₂, e, ha, hl⟩ := List.findSome?_eq_some_iff.mp hc
    intro hall
    have := hall a (Or.inl (by rw [e]; simp))
    rw [this] at ha; simp at ha

/-- **C48** Rewriting events apply every handler once: all custom ones in registration order, then all built-in ones;
with no failing handler the result is the composition in that order. -/
theorem C48_rewrite_order {H T} (rs : List (Reg H)) (v : T) (f : T → H → T) :
    (ofRegs rs).tryFold v (fun t h => .ok (f t h)) = .ok ((customRegs rs ++ builtinRegs rs).foldl f v) := by
  obtain ⟨h1, h2⟩ := ofRegs_eq rs
  unfold tryFold
  rw [h1, h2]
  generalize customRegs rs ++ builtinRegs rs = l
  induction l generalizing v with
  | nil => rfl
  | cons a l ih => simpa [List.foldlM_cons, bind, Except.bind] using ih (f v a)

/-- **C48** A failing rewriting handler aborts with its error; no later handler is applied. -/
theorem C48_rewrite_error {H T} (rs : List (Reg H)) (v : T) (f : T → H → Except Err T) (pre : List H) (h : H)
    (post : List H) (w : T) (e : Err) (hs : customRegs rs ++ builtinRegs rs = pre ++ h :: post)
    (hp : pre.foldlM f v = .ok w) (hh : f w h = .error e) : (ofRegs rs).tryFold v f = .error e := by
  obtain ⟨h1, h2⟩ := ofRegs_eq rs
  unfold tryFold
  rw [h1, h2, hs, List.foldlM_append, hp]
  simp [bind, Except.bind, List.foldlM_cons, hh]

/-- The documentation of `RouteTasksHandler` and `ScaleUpLeafNodeHandler` (`/repo/src/events/route_tasks.rs:42`,
`scale_up_leaf_node.rs:41`) says handlers run in *reverse* registration order; the code does the opposite: with two
custom handlers that both answer, the first registered one wins. -/
theorem C48_documented_reverse_order_false :
    ∃ rs : List (Reg Nat), customRegs rs = [1, 2] ∧ (ofRegs rs).findMap (fun h => some h) = some 1 :=
  ⟨[.custom 1, .custom 2], by decide, by decide⟩

example : (ofRegs [.builtin 10, .custom 1, .builtin 11, .custom 2]).findMap (fun h => if h = 2 then some h else
    if h = 10 then some h else none) = some 2 := by decide

/-! ## C43 -/

/-- **C43** Default random routing with at least one worker: one URL per task, each from the resolver's list, task `i`
on the worker at position `(start + i) mod n`. -/
theorem C43_one_known_url_per_task {U} (urls : List U) (start T : Nat) (h : urls ≠ []) :
    ∃ us, randomRouting (.ok urls) start T = .ok us ∧ us.length = T ∧ (∀ u ∈ us, u ∈ urls) ∧
      ∀ i < T, us[i]? = urls[(start + i) % urls.length]? := by
  cases urls with
  | nil => exact absurd rfl h
  | cons u us =>
    refine ⟨_, rfl, by simp, ?_, ?_⟩
    · intro x hx
      simp only [List.mem_map] at hx
      obtain ⟨i, _, rfl⟩ := hx
      exact List.getElem_mem _
    · intro i hi
      rw [List.getElem?_map, List.getElem?_range hi, Option.map_some, List.getElem?_eq_getElem]

/-- **C43** No workers, or a failing resolver, is an error, never an empty or partial assignment. -/
theorem C43_no_workers {U} (start T : Nat) (e : Err) :
    (∃ s, randomRouting (U := U) (.ok []) start T = .error (.exec s)) ∧ randomRouting (U := U) (.error e) start T = .error e :=
  ⟨⟨_, rfl⟩, rfl⟩

/-- How many of the first `T` tasks land on worker position `a` of `n`. -/
def tasksOn (n start T a : Nat) : Nat := ((List.range T).filter fun i => (start + i) % n = a).length

theorem tasksOn_bounds (n start T a : Nat) (hn : 0 < n) (ha : a < n) :
    T / n ≤ tasksOn n start T a ∧ tasksOn n start T a ≤ T / n + 1 := by
  have hblock : ∀ s, tasksOn n s n a = 1 := by
    intro s
    unfold tasksOn
    rw [← List.countP_eq_length_filter]
    -- the block hits every residue exactly once
    have hperm : ((List.range n).map fun i => (s + i) % n).Nodup := by
      apply List.Nodup.map_on _ List.nodup_range
      intro x hx y hy hxy
      rw [List.mem_range] at hx hy
      have h1 : (s + x) ≡ (s + y) [MOD n] := hxy
      have h2 : x ≡ y [MOD n] := Nat.ModEq.add_left_cancel' s h1
      exact Nat.ModEq.eq_of_lt_of_lt h2 hx hy
    have hsub : (List.range n) ⊆ ((List.range n).map fun i => (s + i) % n) := by
      apply List.Subset.trans _ (List.Subset.refl _)
      exact (List.subperm_of_subset hperm (by intro x hx; simp at hx ⊢; obtain ⟨i, _, rfl⟩ := hx; exact Nat.mod_lt _ hn)).perm_of_length_le (by simp) |>.symm.subset
    have hmem : a ∈ ((List.range n).map fun i => (s + i) % n) := hsub (List.mem_range.mpr ha)
    have := List.count_eq_one_of_mem hperm hmem
    rw [List.count, List.countP_map] at this
    simpa [Function.comp_def, BEq.beq] using this
  have hadd : ∀ x y, tasksOn n start (x + y) a = tasksOn n start x a + tasksOn n (start + x) y a := by
    intro x y
    unfold tasksOn
    rw [List.range_add, List.filter_append, List.length_append, List.filter_map, List.length_map]
    congr 2
    apply List.filter_congr
    intro i _
    simp [Function.comp, Nat.add_assoc]
  have hmul : ∀ k, tasksOn n start (n * k) a = k := by
    intro k
    induction k with
    | zero => simp [tasksOn]
    | succ k ih => rw [Nat.mul_succ, hadd, ih, hblock]
  have hT := Nat.div_add_mod T n
  have hrest : tasksOn n (start + n * (T / n)) (T % n) a ≤ 1 := by
    have h1 := hblock (start + n * (T / n))
    have hle : T % n ≤ n := (Nat.mod_lt T hn).le
    unfold tasksOn at h1 ⊢
    rw [← h1]
    exact ((List.range_sublist.mpr hle).filter _).length_le
  rw [← hT, hadd, hmul]
  rw [hT]
  have : (n * (T / n) + T % n) / n = T / n := by rw [hT]
  omega

/-- **C43** Evenness: two worker positions never differ by more than one task, whatever the random start. -/
theorem C43_even {U} (urls : List U) (start T : Nat)
    (a b : Nat) (ha : a < urls.length) (hb : b < urls.length) :
    tasksOn urls.length start T a ≤ tasksOn urls.length start T b + 1 := by
  have hn : 0 < urls.length := by omega
  have h1 := tasksOn_bounds urls.length start T a hn ha
  have h2 := tasksOn_bounds urls.length start T b hn hb
  omega

/-- **C43** Evenness per URL when the resolver lists every worker once. -/
theorem C43_even_urls {U} [DecidableEq U] (urls : List U) (hnd : urls.Nodup) (start T : Nat) (us : List U)
    (h : randomRouting (.ok urls) start T = .ok us) (u v : U) (hu : u ∈ urls) (hv : v ∈ urls) :
    us.count u ≤ us.count v + 1 := by
  have hne : urls ≠ [] := fun h => by rw [h] at hu; simp at hu
  have key : ∀ a (ha : a < urls.length), us.count urls[a] = tasksOn urls.length start T a := by
    intro a ha
    cases urls with
    | nil => exact absurd rfl hne
    | cons w ws =>
      simp only [randomRouting, Except.ok.injEq] at h
      subst h
      rw [List.count, List.countP_map, List.countP_eq_length_filter]
      unfold tasksOn
      congr 1
      apply List.filter_congr
      intro i _
      simp only [Function.comp, BEq.beq]
      congr 1
      rw [eq_iff_iff]
      exact (List.Nodup.getElem_inj_iff hnd)
  obtain ⟨a, ha, rfl⟩ := List.mem_iff_getElem.mp hu
  obtain ⟨b, hb, rfl⟩ := List.mem_iff_getElem.mp hv
  rw [key a ha, key b hb]
  exact C43_even urls start T a b ha hb

/-- **C43** The complete default routing (no custom handler, or all of them declining): success means exactly one URL
per task, every one known: from the resolver, or, for a single task, the coordinator itself or the only worker of an
input stage. -/
theorem C43_routed_urls {U} (custom : List (Option (Except Err (List U)))) (hc : ∀ c ∈ custom, c = none)
    (self : Option U) (children : List (Option (List U))) (urls : List U) (start T : Nat) (us : List U)
    (h : routedUrls custom self children (.ok urls) start T = .ok us) :
    us.length = T ∧ ∀ u ∈ us, u ∈ urls ∨ (T = 1 ∧ (self = some u ∨ some [u] ∈ children)) := by
  unfold routedUrls at h
  have hcn : custom.findSome? id = none := by
    rw [List.findSome?_eq_none_iff]; intro c hc'; simpa using hc c hc'
  simp only [findMap, hcn] at h
  have hlen : us.length = T := by
    split at h
    · simp at h
    · simp at h
    · split at h
      · simp at h
      · rename_i us' _ hl; simp at h; subst h; omega
  refine ⟨hlen, ?_⟩
  intro u hu
  simp only [List.findSome?_cons] at h
  rcases hcr : coordinatorRouting self T with _ | l
  · simp only [hcr, Option.map_none, id] at h
    rcases hch : childUrlRouting children T with _ | l
    · simp only [hch, Option.map_none] at h
      rcases hr : randomRouting (.ok urls) start T with e | l
      · simp [hr] at h
      · simp only [hr] at h
        split at h
        · simp at h
        · simp only [Except.ok.injEq] at h
          subst h
          left
          have hne : urls ≠ [] := by rintro rfl; simp [randomRouting] at hr
          obtain ⟨us', h1, _, h3, _⟩ := C43_one_known_url_per_task urls start T hne
          rw [hr] at h1
          simp only [Except.ok.injEq] at h1
          subst h1
          exact h3 u hu
    · simp only [hch, Option.map_some] at h
      split at h
      · simp at h
      · simp only [Except.ok.injEq] at h
        subst h
        right
        unfold childUrlRouting at hch
        split at hch
        · simp at hch
        · rename_i hT
          refine ⟨by omega, Or.inr ?_⟩
          obtain ⟨l₁, a, l₂, e, ha, _⟩ := List.findSome?_eq_some_iff.mp hch
          split at ha
          · simp only [Option.some.injEq] at ha
            subst ha
            simp only [List.mem_singleton] at hu
            subst hu
            rw [e]; simp
          · simp at ha
  · simp only [hcr, Option.map_some, id] at h
    split at h
    · simp at h
    · simp only [Except.ok.injEq] at h
      subst h
      right
      unfold coordinatorRouting at hcr
      split at hcr
      · simp at hcr
      · rename_i hT
        refine ⟨by omega, Or.inl ?_⟩
        cases self with
        | none => simp at hcr
        | some s => simp at hcr; subst hcr; simp at hu; subst hu; rfl

example : routedUrls [none] none [none, some ["c"]] (.ok ["a", "b"]) 1 5 = .ok ["b", "a", "b", "a", "b"] ∧
    routedUrls [none] none [none, some ["c"]] (.ok ["a", "b"]) 1 1 = .ok ["c"] := by decide

end DD
