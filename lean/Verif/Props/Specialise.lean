/-
**C27** The plan sent to a task is the part of the stage's plan the task runs.
-/
import Verif.Lemmas.Specialise
import Verif.Props.PlanShape

namespace DD.Tree.Rec

open DD.Tree

variable {Row : Type}

/-! ### Planned stages meet the conditions -/

/-- What the plans of stages are like: for each task of a legal plan, the isolated unions and the divided leaves it meets
have something for it. -/
theorem legal_ok {ph : Bool} {T : Nat} {p : Plan Row} {I : Info Row} (h : Legal ph T p I) :
    ∀ ctx : TaskCtx, ctx.index < T → CtxOk ctx p ∧ LeavesOk ctx p := by
  -- a node other than an isolated union or a divided leaf, with children run by the same tasks
  have plain : ∀ (T : Nat) (k : Kind Row) (tc : TaskCount) (cs : List (Plan Row)), (∀ ws m, k ≠ .ciu ws m) →
      (∀ o vs, k ≠ .distLeaf o vs) → (k.isNet = false → ∀ (i : Nat) c, cs[i]? = some c → ∀ ctx : TaskCtx, ctx.index < T →
        CtxOk ctx c ∧ LeavesOk ctx c) →
      ∀ ctx : TaskCtx, ctx.index < T → CtxOk ctx (.node k tc cs) ∧ LeavesOk ctx (.node k tc cs) := by
    intro T k tc cs hk hd hcs ctx hlt
    constructor
    · intro ctx' ws m tc' cs' hat
      cases hat with
      | root => exact absurd rfl (hk _ _)
      | child hn _ hc hat => exact (hcs hn _ _ hc ctx hlt).1 _ _ _ _ _ hat
      | branch => exact absurd rfl (hk _ _)
    · intro ctx' o vs tc' cs' hat
      cases hat with
      | root => exact absurd rfl (hd _ _)
      | child hn _ hc hat => exact (hcs hn _ _ hc ctx hlt).2 _ _ _ _ _ hat
      | branch => exact absurd rfl (hk _ _)
  have one : ∀ {c : Plan Row} {P : Plan Row → Prop}, P c → ∀ (i : Nat) c', [c][i]? = some c' → P c' := by
    intro c P h i c' hc
    cases i with
    | zero => cases hc; exact h
    | succ i => cases hc
  have two : ∀ {b c : Plan Row} {P : Plan Row → Prop}, P b → P c → ∀ (i : Nat) c', [b, c][i]? = some c' → P c' := by
    intro b c P h h' i c' hc
    match i with
    | 0 => cases hc; exact h
    | 1 => cases hc; exact h'
    | i + 2 => cases hc
  have zip : ∀ {α : Type} {cs : List (Plan Row)} {as : List α} (_ : cs.length = as.length) {i : Nat} {c},
      cs[i]? = some c → ∃ a, as[i]? = some a := by
    intro α cs as hl i c hc
    have := (List.getElem?_eq_some_iff.mp hc).1
    exact ⟨as[i]'(hl ▸ this), List.getElem?_eq_getElem _⟩
  induction h with
  | leaf _ => exact plain _ _ _ _ (by rintro _ _ ⟨⟩) (by rintro _ _ ⟨⟩) (fun _ i c hc => by cases hc)
  | @distLeaf tc o vs T P _ hT hP _ _ =>
    intro ctx hlt
    constructor
    · intro ctx' ws m tc' cs' hat
      cases hat with
      | child _ _ hc => cases hc
    · intro ctx' o' vs' tc' cs' hat
      cases hat with
      | root => exact ⟨rfl, by omega, P, hP⟩
      | child _ _ hc => cases hc
  | opLocal _ _ _ _ ih => exact plain _ _ _ _ (by rintro _ _ ⟨⟩) (by rintro _ _ ⟨⟩) (fun _ => one ih)
  | opKeyed _ _ _ _ h1 h2 _ ih =>
    refine plain _ _ _ _ (by rintro _ _ ⟨⟩) (by rintro _ _ ⟨⟩) (fun _ i c hc => ?_)
    obtain ⟨a, ha⟩ := zip h1 hc
    obtain ⟨b, hb⟩ := zip h2 hc
    exact ih i c a b hc ha hb
  | opSingle _ _ _ h1 _ ih =>
    refine plain _ _ _ _ (by rintro _ _ ⟨⟩) (by rintro _ _ ⟨⟩) (fun _ i c hc => ?_)
    obtain ⟨a, ha⟩ := zip h1 hc
    exact ih i c a hc ha
  | joinSafe _ _ _ _ _ ih1 ih2 => exact plain _ _ _ _ (by rintro _ _ ⟨⟩) (by rintro _ _ ⟨⟩) (fun _ => two ih1 ih2)
  | joinSingle _ _ _ _ ih1 ih2 => exact plain _ _ _ _ (by rintro _ _ ⟨⟩) (by rintro _ _ ⟨⟩) (fun _ => two ih1 ih2)
  | joinPart _ _ _ _ _ ih1 ih2 => exact plain _ _ _ _ (by rintro _ _ ⟨⟩) (by rintro _ _ ⟨⟩) (fun _ => two ih1 ih2)
  | union _ h1 _ ih =>
    refine plain _ _ _ _ (by rintro _ _ ⟨⟩) (by rintro _ _ ⟨⟩) (fun _ i c hc => ?_)
    obtain ⟨a, ha⟩ := zip h1 hc
    exact ih i c a hc ha
  | @ciu tc ws m cs T E k Ps _ hl hm hr ho _ ih =>
    intro ctx hlt
    have hlt' : ctx.index < m.length := by omega
    have hes : m[ctx.index]? = some m[ctx.index] := List.getElem?_eq_getElem hlt'
    have hent : ∀ e ∈ m[ctx.index], e.1 < cs.length ∧ e.2.index < k e.1 := by
      intro e he
      have : e ∈ m.flatten := List.mem_flatten.mpr ⟨_, List.getElem_mem hlt', he⟩
      have := Union.mem_childTasks.mp (hr.2.mem_iff.mp this)
      exact ⟨this.1, this.2.1⟩
    constructor
    · intro ctx' ws' m' tc' cs' hat
      cases hat with
      | root => exact ⟨_, hes, ho _ (List.getElem_mem hlt'), fun e he => (hent e he).1⟩
      | child _ hk => exact absurd rfl (hk _ _)
      | branch h1 h2 h3 hat =>
        rw [hes] at h1
        cases h1
        obtain ⟨P, hP⟩ := zip hl h3
        exact (ih _ _ P h3 hP _ (hent _ h2).2).1 _ _ _ _ _ hat
    · intro ctx' o' vs' tc' cs' hat
      cases hat with
      | child _ hk => exact absurd rfl (hk _ _)
      | branch h1 h2 h3 hat =>
        rw [hes] at h1
        cases h1
        obtain ⟨P, hP⟩ := zip hl h3
        exact (ih _ _ P h3 hP _ (hent _ h2).2).2 _ _ _ _ _ hat
  | hashRepart _ _ _ ih => exact plain _ _ _ _ (by rintro _ _ ⟨⟩) (by rintro _ _ ⟨⟩) (fun _ => one ih)
  | otherRepart _ _ _ ih => exact plain _ _ _ _ (by rintro _ _ ⟨⟩) (by rintro _ _ ⟨⟩) (fun _ => one ih)
  | coalesce _ ih => exact plain _ _ _ _ (by rintro _ _ ⟨⟩) (by rintro _ _ ⟨⟩) (fun _ => one ih)
  | fetch hk _ _ ih =>
    rcases hk with rfl | ⟨le, rfl⟩ <;>
      exact plain _ _ _ _ (by rintro _ _ ⟨⟩) (by rintro _ _ ⟨⟩) (fun _ => one ih)
  | spm _ ih => exact plain _ _ _ _ (by rintro _ _ ⟨⟩) (by rintro _ _ ⟨⟩) (fun _ => one ih)
  | broadcast _ ih => exact plain _ _ _ _ (by rintro _ _ ⟨⟩) (by rintro _ _ ⟨⟩) (fun _ => one ih)
  | shuffle => exact plain _ _ _ _ (by rintro _ _ ⟨⟩) (by rintro _ _ ⟨⟩) (fun h => by cases h)
  | netCoalesce => exact plain _ _ _ _ (by rintro _ _ ⟨⟩) (by rintro _ _ ⟨⟩) (fun h => by cases h)
  | netBroadcast => exact plain _ _ _ _ (by rintro _ _ ⟨⟩) (by rintro _ _ ⟨⟩) (fun h => by cases h)
  | forget _ ih => exact ih
  | coarsen _ _ ih => exact ih
  | trivial _ ih => exact ih
  | repFlip _ ih => exact ih

/-- Every boundary in a legal plan has an input that is legal for the tasks of its input stage. -/
theorem legal_sub {ph : Bool} {T : Nat} {p : Plan Row} {I : Info Row} (h : Legal ph T p I) :
    ∀ {t : Nat} {x : Plan Row}, At T p t x → x.kind.isNet = true →
      ∃ c I', x.children = [c] ∧ (c.kind.isHead = true → c.children.length = 1) ∧ Legal ph x.kind.tasks (strip c) I'
        ∧ (∀ P n i, x.kind = .netCoalesce P n i → c.kind.isHead = false) := by
  have zip : ∀ {α : Type} {cs : List (Plan Row)} {as : List α} (_ : cs.length = as.length) {i : Nat} {c},
      cs[i]? = some c → ∃ a, as[i]? = some a := by
    intro α cs as hl i c hc
    have := (List.getElem?_eq_some_iff.mp hc).1
    exact ⟨as[i]'(hl ▸ this), List.getElem?_eq_getElem _⟩
  -- the input of a boundary, without its head
  have below : ∀ {N : Nat} {c : Plan Row} {t x}, (c.kind.isHead = true → c.children.length = 1) → At N c t x →
      x.kind.isNet = true → At N (strip c) t x := by
    intro N c t x hh hat hx
    rcases strip_cases c with e | ⟨hk, y, rest, e, e'⟩
    · rwa [e]
    · rw [e']
      have hl := hh hk
      cases hat with
      | root => rw [isHead_isNet hk] at hx; cases hx
      | @child _ k tc cs i c' _ _ hc hat =>
        simp only [Plan.children] at e hl
        rw [e] at hl hc
        have : rest = [] := by simpa using hl
        subst this
        have hcc : childCount k N i = N := by
          cases k <;> first | rfl | cases hk
        rw [hcc] at hat
        cases i with
        | zero => cases hc; exact hat
        | succ i => cases hc
  have plain : ∀ {T : Nat} {k : Kind Row} {tc : TaskCount} {cs : List (Plan Row)} {t x}, k.isNet = false →
      (∀ ws m, k ≠ .ciu ws m) → At T (.node k tc cs) t x → x.kind.isNet = true →
      ∃ (i : Nat) (c : Plan Row), cs[i]? = some c ∧ At T c t x := by
    intro T k tc cs t x hn hk hat hx
    cases hat with
    | root => rw [show (Plan.node k tc cs).kind = k from rfl, hn] at hx; cases hx
    | child hc hat =>
      rw [childCount_same hn hk] at hat
      exact ⟨_, _, hc, hat⟩
  have net : ∀ {T : Nat} {k : Kind Row} {tc : TaskCount} {c : Plan Row} {I' : Info Row} {t x}, k.isNet = true →
      (c.kind.isHead = true → c.children.length = 1) → (∀ P n i, k = .netCoalesce P n i → c.kind.isHead = false) →
      Legal ph k.tasks (strip c) I' →
      (∀ {t x}, At k.tasks (strip c) t x → x.kind.isNet = true →
        ∃ c I', x.children = [c] ∧ (c.kind.isHead = true → c.children.length = 1) ∧ Legal ph x.kind.tasks (strip c) I'
        ∧ (∀ P n i, x.kind = .netCoalesce P n i → c.kind.isHead = false)) →
      At T (.node k tc [c]) t x → x.kind.isNet = true →
      ∃ c I', x.children = [c] ∧ (c.kind.isHead = true → c.children.length = 1) ∧ Legal ph x.kind.tasks (strip c) I'
        ∧ (∀ P n i, x.kind = .netCoalesce P n i → c.kind.isHead = false) := by
    intro T k tc c I' t x hn hh hcoal hl ih hat hx
    cases hat with
    | root => exact ⟨c, I', rfl, hh, hl, hcoal⟩
    | @child _ _ _ _ i c' _ _ hc hat =>
      have hcc : childCount k T i = k.tasks := by cases k <;> first | rfl | cases hn
      rw [hcc] at hat
      cases i with
      | zero => cases hc; exact ih (below hh hat hx) hx
      | succ i => cases hc
  induction h with
  | leaf _ =>
    intro t x hat hx
    obtain ⟨i, c, hc, _⟩ := plain rfl (by rintro _ _ ⟨⟩) hat hx
    cases hc
  | distLeaf =>
    intro t x hat hx
    obtain ⟨i, c, hc, _⟩ := plain rfl (by rintro _ _ ⟨⟩) hat hx
    cases hc
  | opKeyed _ _ _ _ h1 h2 _ ih =>
    intro t x hat hx
    obtain ⟨i, c, hc, hat⟩ := plain rfl (by rintro _ _ ⟨⟩) hat hx
    obtain ⟨a, ha⟩ := zip h1 hc
    obtain ⟨b, hb⟩ := zip h2 hc
    exact ih i c a b hc ha hb hat hx
  | opSingle _ _ _ h1 _ ih =>
    intro t x hat hx
    obtain ⟨i, c, hc, hat⟩ := plain rfl (by rintro _ _ ⟨⟩) hat hx
    obtain ⟨a, ha⟩ := zip h1 hc
    exact ih i c a hc ha hat hx
  | union _ h1 _ ih =>
    intro t x hat hx
    obtain ⟨i, c, hc, hat⟩ := plain rfl (by rintro _ _ ⟨⟩) hat hx
    obtain ⟨a, ha⟩ := zip h1 hc
    exact ih i c a hc ha hat hx
  | joinSafe _ _ _ _ _ ih1 ih2 | joinSingle _ _ _ _ ih1 ih2 | joinPart _ _ _ _ _ ih1 ih2 =>
    intro t x hat hx
    obtain ⟨i, c, hc, hat⟩ := plain rfl (by rintro _ _ ⟨⟩) hat hx
    match i with
    | 0 => cases hc; exact ih1 hat hx
    | 1 => cases hc; exact ih2 hat hx
    | i + 2 => cases hc
  | opLocal _ _ _ _ ih | hashRepart _ _ _ ih | otherRepart _ _ _ ih | coalesce _ ih | spm _ ih | broadcast _ ih =>
    intro t x hat hx
    obtain ⟨i, c, hc, hat⟩ := plain rfl (by rintro _ _ ⟨⟩) hat hx
    match i with
    | 0 => cases hc; exact ih hat hx
    | i + 1 => cases hc
  | fetch hk _ _ ih =>
    intro t x hat hx
    obtain ⟨i, c, hc, hat⟩ := plain (by rcases hk with rfl | ⟨le, rfl⟩ <;> rfl) (by rcases hk with rfl | ⟨le, rfl⟩ <;> rintro _ _ ⟨⟩) hat hx
    match i with
    | 0 => cases hc; exact ih hat hx
    | i + 1 => cases hc
  | @ciu tc ws m cs T E k Ps _ hl hm hr ho _ ih =>
    intro t x hat hx
    cases hat with
    | root => cases hx
    | @child _ _ _ _ i c _ _ hc hat =>
      obtain ⟨P, hP⟩ := zip hl hc
      have : childCount (Row := Row) (.ciu ws m) T i = k i := unionCount_eq hr (List.getElem?_eq_some_iff.mp hc).1
      rw [this] at hat
      exact ih i c P hc hP hat hx
  | @shuffle tc h p N num c T P E hp hN hph hpos hc ih =>
    intro t x hat hx
    exact net (k := .shuffle h p N num) rfl hpos.2 (by rintro _ _ _ ⟨⟩) hc ih hat hx
  | @netCoalesce tc p N num c T P E hN hp hh hnet hc ih =>
    intro t x hat hx
    exact net (k := .netCoalesce p N num) rfl (by rw [hh]; intro h; cases h) (fun _ _ _ _ => hh) hc ih hat hx
  | @netBroadcast tc p N num c T E hN hb hc ih =>
    intro t x hat hx
    obtain ⟨n, tc', y, rfl, _⟩ := hb
    exact net (k := .netBroadcast p N num) rfl (fun _ => rfl) (by rintro _ _ _ ⟨⟩) hc ih hat hx
  | forget _ ih => exact ih
  | trivial _ ih => exact ih
  | repFlip _ ih => exact ih
  | coarsen _ _ ih => exact ih

/-! ### Heads -/

theorem ok_of_strip {ctx : TaskCtx} {p : Plan Row} (hh : p.kind.isHead = true → p.children.length = 1)
    (h : CtxOk ctx (strip p) ∧ LeavesOk ctx (strip p)) : CtxOk ctx p ∧ LeavesOk ctx p := by
  rcases strip_cases p with e | ⟨hk, y, rest, e, e'⟩
  · rwa [e] at h
  · rw [e'] at h
    have hl := hh hk
    cases p with
    | node k tc cs =>
      simp only [Plan.children] at e hl
      simp only [Plan.kind] at hk
      subst e
      have : rest = [] := by simpa using hl
      subst this
      constructor
      · intro ctx' ws m tc' cs' hat
        cases hat with
        | root => cases hk
        | @child _ _ _ _ i c _ _ _ _ hc hat =>
          match i with
          | 0 => cases hc; exact h.1 _ _ _ _ _ hat
          | i + 1 => cases hc
        | branch => cases hk
      · intro ctx' o vs tc' cs' hat
        cases hat with
        | root => cases hk
        | @child _ _ _ _ i c _ _ _ _ hc hat =>
          match i with
          | 0 => cases hc; exact h.2 _ _ _ _ _ hat
          | i + 1 => cases hc
        | branch => cases hk

theorem share_kind (ctx : TaskCtx) (p : Plan Row) : (share ctx p).kind.isHead = p.kind.isHead := by
  cases p with
  | node k tc cs =>
    rcases isDistLeaf k with ⟨o, vs, rfl⟩ | hd
    · rfl
    · rw [share_node hd]; rfl

theorem share_tc (ctx : TaskCtx) (p : Plan Row) : (share ctx p).tc = p.tc := by
  cases p with
  | node k tc cs =>
    rcases isDistLeaf k with ⟨o, vs, rfl⟩ | hd
    · rfl
    · rw [share_node hd]; rfl

/-- Taking off the head of a task's share is taking the share of the plan without its head. -/
theorem strip_share (ctx : TaskCtx) (p : Plan Row) : strip (share ctx p) = share ctx (strip p) := by
  rcases strip_cases p with e | ⟨hk, y, rest, e, e'⟩
  · rw [e]
    cases p with
    | node k tc cs =>
      rcases isDistLeaf k with ⟨o, vs, rfl⟩ | hd
      · rfl
      · rw [share_node hd]
        by_cases hk : k.isHead = true
        · cases cs with
          | nil => cases k <;> first | rfl | cases hk
          | cons c cs =>
            have : strip (.node k tc (c :: cs)) = c := by simp [strip, hk]
            rw [this] at e
            have := congrArg sizeOf e
            simp at this
            omega
        · exact strip_noop (by simpa [Plan.kind] using hk)
  · rw [e']
    cases p with
    | node k tc cs =>
      simp only [Plan.children] at e
      simp only [Plan.kind] at hk
      subst e
      rw [share_node (by rintro _ _ rfl; cases hk), isHead_isNet hk]
      have hcc : childCtx k ctx 0 = some ctx := by cases k <;> first | rfl | cases hk
      simp [shareAll, hcc, strip, hk]

/-- The head the consumers ask for can be put on the task's share of a plan if it can be put on the plan, and the task
then produces the same rows in every partition. -/
theorem insert_same {ctx : TaskCtx} {p : Plan Row} (h : CtxOk ctx (strip p) ∧ LeavesOk ctx (strip p)) {hd : Head Row}
    {w : Plan Row} (hw : hd.insert p = .ok w) :
    ∃ w', hd.insert (share ctx p) = .ok w' ∧ Same ctx (run w') (run w) := by
  have hs := share_same (strip p) ctx h.1 h.2
  have one : ∀ (k : Kind Row) (tc : TaskCount), k.isNet = false → (∀ ws m, k ≠ .ciu ws m) →
      Same ctx (run (.node k tc [share ctx (strip p)])) (run (.node k tc [strip p])) := by
    intro k tc hn hk
    rw [run_node, run_node]
    apply runKind_same hn hk (by simp)
    intro i a b h1 h2
    match i with
    | 0 => cases h1; cases h2; exact hs
    | i + 1 => cases h1
  unfold Head.insert at hw ⊢
  rw [strip_share, share_tc]
  cases hd with
  | none =>
    cases hw
    exact ⟨_, rfl, hs⟩
  | repartition g n =>
    cases hw
    exact ⟨_, rfl, one _ _ rfl (by rintro _ _ ⟨⟩)⟩
  | broadcast n =>
    obtain ⟨b, hb, hw⟩ := bind_ok hw
    cases hw
    have hparts : (share ctx (strip p)).parts = (strip p).parts := hs.1
    refine ⟨.node (.broadcast b.consumerTasks) p.tc [share ctx (strip p)], ?_, one _ _ rfl (by rintro _ _ ⟨⟩)⟩
    simp only [hparts, hb]
    rfl

/-! ### **C27** -/

/-- **C27** For every stage plan that can be executed by `N` tasks, and each of these tasks: specialising the plan
succeeds, with the task's share of the plan as result. -/
theorem C27_task_gets_its_share {ph : Bool} {N : Nat} {p : Plan Row} {I : Info Row} (h : Legal ph N (strip p) I)
    (hh : p.kind.isHead = true → p.children.length = 1) {i : Nat} (hi : i < N) {fuel : Nat} (hf : depth p ≤ fuel) :
    taskSpecialized fuel p ⟨i, N⟩ = .ok (share ⟨i, N⟩ p) := by
  have hok := ok_of_strip hh (legal_ok h ⟨i, N⟩ hi)
  have h1 := C26_ctx (S := Unit) specialiseNode fuel p ⟨i, N⟩ ()
  rw [downIn_share fuel p ⟨i, N⟩ hf hok.1 hok.2] at h1
  unfold taskSpecialized
  cases hd : downCtx (S := Unit) specialiseNode fuel p ⟨i, N⟩ () with
  | error e => rw [hd] at h1; cases h1
  | ok r =>
    rw [hd] at h1
    have h2 : (r.1, r.2.2) = ((⟨share ⟨i, N⟩ p, .cont⟩, ()) : Tr Row × Unit) := Except.ok.inj h1
    have h3 : r.1 = ⟨share ⟨i, N⟩ p, .cont⟩ := congrArg Prod.fst h2
    obtain ⟨r1, r2⟩ := r
    simp only at h3
    subst h3
    rfl

/- **C27** No leaf divided between tasks is left in a task's share: each was replaced by the variant of the task. -/
mutual
theorem C27_no_divided_leaf : ∀ (ctx : TaskCtx) (p x : Plan Row), SameStage (share ctx p) x → ∀ o vs, x.kind ≠ .distLeaf o vs
  | ctx, .node k tc cs, x, h, o, vs => by
    rcases isDistLeaf k with ⟨o', vs', rfl⟩ | hd
    · cases h with
      | root => rintro ⟨⟩
      | child _ hc => cases hc
    · rw [share_node hd] at h
      cases h with
      | root => exact hd o vs
      | @child _ _ _ c _ hn hc h =>
        rw [hn] at hc
        exact no_divided_leafs (childCtx k ctx) cs c hc x h o vs
theorem no_divided_leafs : ∀ (arg : Nat → Option TaskCtx) (cs : List (Plan Row)), ∀ c ∈ shareAll arg cs, ∀ x,
    SameStage c x → ∀ o vs, x.kind ≠ .distLeaf o vs
  | arg, c :: cs, c', hc, x, h, o, vs => by
    unfold shareAll at hc
    rcases List.mem_cons.mp hc with rfl | hc
    · cases ha : arg 0 with
      | none =>
        rw [ha] at h
        cases h with
        | root => rintro ⟨⟩
        | child _ hc => cases hc
      | some ctx =>
        rw [ha] at h
        exact C27_no_divided_leaf ctx c x h o vs
    · exact no_divided_leafs (fun i => arg (i + 1)) cs c' hc x h o vs
end

/-- **C27** In a task's share, the children of isolated unions that are not assigned to the task are leaves without
rows. -/
theorem C27_unassigned_branches_are_empty : ∀ (p : Plan Row) (ctx : TaskCtx), CtxOk ctx p → ∀ ctx' ws m tc cs,
    CtxAt ctx (share ctx p) ctx' (.node (.ciu ws m) tc cs) → ∀ (i : Nat) c, cs[i]? = some c →
    (∀ e ∈ m.getD ctx'.index [], e.1 ≠ i) → ∃ n tc', c = .node (.leaf (List.replicate n [])) tc' []
  | .node k tc cs, ctx, hok, ctx', ws, m, tc', cs', h, i, c, hc, hno => by
    rcases isDistLeaf k with ⟨o, vs, rfl⟩ | hd
    · cases h with
      | child _ _ hc => cases hc
    · rw [share_node hd] at h
      have hget : ∀ (j : Nat) c', (shareAll (childCtx k ctx) cs)[j]? = some c' → ∃ c0, cs[j]? = some c0
          ∧ c' = match childCtx k ctx j with
            | none => emptyLike c0
            | some ctx₁ => share ctx₁ c0 := by
        intro j c' h
        rw [shareAll_eq, List.getElem?_mapIdx, Option.map_eq_some_iff] at h
        obtain ⟨c, h1, h2⟩ := h
        exact ⟨c, h1, h2.symm⟩
      cases h with
      | root =>
        simp only [Kind.isNet, Bool.false_eq_true, if_false] at hc
        obtain ⟨c0, _, rfl⟩ := hget i c hc
        have : childCtx (Row := Row) (.ciu ws m) ctx i = none := by
          simp only [childCtx, Option.map_eq_none_iff, List.getLast?_eq_none_iff, List.filter_eq_nil_iff, beq_iff_eq]
          exact hno
        rw [this]
        exact ⟨_, _, rfl⟩
      | @child _ _ _ _ j c1 _ _ hn hk hc1 hat =>
        rw [hn] at hc1
        obtain ⟨c0, h0, rfl⟩ := hget j c1 hc1
        rw [childCtx_other hk] at hat
        have := List.mem_of_getElem? h0
        exact C27_unassigned_branches_are_empty c0 ctx (hok.child hn h0 (childCtx_other hk ctx j)) _ _ _ _ _ hat i c hc hno
      | @branch _ ws1 m1 _ _ es j ctx1 c1 _ _ hes he hc1 hat =>
        simp only [Kind.isNet, Bool.false_eq_true, if_false] at hc1
        obtain ⟨c0, h0, rfl⟩ := hget j c1 hc1
        obtain ⟨es', hes', hnd, _⟩ := hok ctx _ _ tc cs .root
        rw [hes] at hes'
        cases hes'
        have ha := (childCtx_iff (ws := ws1) (Row := Row) hes hnd j ctx1).mpr he
        rw [ha] at hat
        have := List.mem_of_getElem? h0
        exact C27_unassigned_branches_are_empty c0 ctx1 (hok.child rfl h0 ha) _ _ _ _ _ hat i c hc hno
termination_by p => sizeOf p
decreasing_by all_goals (have := List.sizeOf_lt_of_mem ‹_ ∈ cs›; simp_wf; omega)

/-- **C27** (rows) With whatever head the consumers ask for, the task produces from its share, in every partition, the
rows it would produce from the plan of the stage. -/
theorem C27_same_rows {ph : Bool} {N : Nat} {p w : Plan Row} {I : Info Row} (h : Legal ph N (strip p) I)
    {i : Nat} (hi : i < N) {hd : Head Row} (hw : hd.insert p = .ok w) :
    ∃ w', hd.insert (share ⟨i, N⟩ p) = .ok w' ∧ (run w').parts = (run w).parts
      ∧ ∀ q, (run w').exec true ⟨i, N⟩ q = (run w).exec true ⟨i, N⟩ q :=
  insert_same (legal_ok h ⟨i, N⟩ hi) hw

/-- What **C27** says of the input `p` of a boundary with `N` producer tasks. -/
structure Specialises (N : Nat) (p : Plan Row) : Prop where
  /-- each task is sent its share -/
  share : ∀ i < N, ∀ fuel, depth p ≤ fuel → taskSpecialized fuel p ⟨i, N⟩ = .ok (share ⟨i, N⟩ p)
  /-- which has no leaf divided between tasks (the codec would not accept one) -/
  leaves : ∀ i < N, ∀ x, SameStage (Rec.share ⟨i, N⟩ p) x → ∀ o vs, x.kind ≠ .distLeaf o vs
  /-- no union branch the task does not run -/
  branches : ∀ i < N, ∀ ctx' ws m tc cs, CtxAt ⟨i, N⟩ (Rec.share ⟨i, N⟩ p) ctx' (.node (.ciu ws m) tc cs) →
    ∀ (j : Nat) c, cs[j]? = some c → (∀ e ∈ m.getD ctx'.index [], e.1 ≠ j) →
    ∃ n tc', c = .node (.leaf (List.replicate n [])) tc' []
  /-- and with which it produces the rows it would produce with the whole plan -/
  rows : ∀ i < N, ∀ hd w, Head.insert hd p = .ok w → ∃ w', Head.insert hd (Rec.share ⟨i, N⟩ p) = .ok w'
    ∧ (run w').parts = (run w).parts ∧ ∀ q, (run w').exec true ⟨i, N⟩ q = (run w).exec true ⟨i, N⟩ q

/-- **C27** In every planned plan, every boundary's input is sent to each of its tasks as the part of it the task runs. -/
theorem C27_planned_stages_specialise {env : Env Row} (he : EnvOk env) {p p' : Plan Row} {J : SInfo Row}
    (h : Src env .pre p J) (hrep : J.rep = false) (hroot : RootOk env p J) (hp : plan env p = .ok (some p'))
    {t : Nat} {x : Plan Row} (hx : At 1 p' t x) (hn : x.kind.isNet = true) :
    ∃ c, x.children = [c] ∧ Specialises x.kind.tasks c := by
  obtain ⟨d, hl, _⟩ := plan_src he h hrep hroot hp
  obtain ⟨c, I', h1, h2, h3, _⟩ := legal_sub hl hx hn
  exact ⟨c, h1, fun i hi fuel hf => C27_task_gets_its_share h3 h2 hi hf, fun i _ => C27_no_divided_leaf _ _,
    fun i hi => C27_unassigned_branches_are_empty c _ (ok_of_strip h2 (legal_ok h3 _ hi)).1,
    fun i hi hd w hw => C27_same_rows h3 hi hw⟩

/-! ### The theorems apply -/

/-- An isolated union: its first branch, a leaf divided between two tasks, runs in tasks 0 and 1, its second in task 2. -/
def Demo.branches : Plan Nat :=
  fresh (.ciu [] [[(0, ⟨0, 2⟩)], [(0, ⟨1, 2⟩)], [(1, ⟨0, 1⟩)]])
    [fresh (.distLeaf [[1, 2]] [[[1]], [[2]]]) [], fresh (.leaf [[3], [4]]) []]

theorem Demo.branches_legal : Legal false 3 Demo.branches ⟨2, none, false, .perm⟩ := by
  refine .ciu (k := fun i => if i = 0 then 2 else 1) (Ps := [1, 2]) (by simp) rfl rfl ⟨by decide, by decide⟩
    (by unfold Union.OncePerTask; decide) ?_
  intro i c P hc hP
  match i with
  | 0 =>
    cases hc; cases hP
    exact .distLeaf (by decide) rfl (by decide) (by decide) (by decide)
  | 1 =>
    cases hc; cases hP
    exact .leaf (by simp)
  | i + 2 => cases hc

/-- The second task gets the second half of the first branch, and nothing of the second branch. -/
example : taskSpecialized 3 Demo.branches ⟨1, 3⟩
    = .ok (fresh (.ciu [] [[(0, ⟨0, 2⟩)], [(0, ⟨1, 2⟩)], [(1, ⟨0, 1⟩)]])
      [fresh (.leaf [[2]]) [], fresh (.leaf [[], []]) []]) := by
  rw [C27_task_gets_its_share (p := Demo.branches) Demo.branches_legal (by intro h; cases h) (i := 1) (by decide)
    (fuel := 3) (by decide)]
  rfl

/-- A planned plan, with a boundary whose input is run by three tasks. -/
example : ∃ p', plan Tree.Demo.sess Tree.Demo.input = .ok (some p') ∧ ∃ t x c, At 1 p' t x ∧ x.kind.isNet = true
    ∧ x.kind.tasks = 3 ∧ x.children = [c] ∧ Specialises 3 c := by
  obtain ⟨p', hp⟩ := planned_of (env := Tree.Demo.sess) (p := Tree.Demo.input) (by decide +kernel)
  have hshape : (match plan Tree.Demo.sess Tree.Demo.input with
      | .ok (some (.node k _ [.node k' _ [_]])) => k.isNet == false && k'.isNet && k'.tasks == 3 &&
        (match k with | .coalesce none => true | _ => false)
      | _ => false) = true := by decide +kernel
  rw [hp] at hshape
  refine ⟨p', hp, ?_⟩
  match p', hp, hshape with
  | .node k tc [.node k' tc' [c]], hp, hshape =>
    simp only [Bool.and_eq_true, beq_iff_eq] at hshape
    obtain ⟨⟨⟨h1, h2⟩, h3⟩, h4⟩ := hshape
    have hat : At 1 (.node k tc [.node k' tc' [c]]) 1 (.node k' tc' [c]) := by
      refine .child (i := 0) rfl ?_
      have : childCount k 1 0 = 1 := by cases k <;> first | rfl | cases h4
      rw [this]
      exact .root
    obtain ⟨c', e, hs⟩ := C27_planned_stages_specialise Tree.Demo.sess_ok Tree.Demo.input_src rfl (.inr (by
      intro p1 h1
      have : normalize Tree.Demo.sess Tree.Demo.input = .ok Tree.Demo.input := by rfl
      rw [this] at h1; cases h1
      exact ⟨by decide +kernel, rfl⟩)) hp hat h2
    cases e
    refine ⟨1, _, c, hat, h2, h3, rfl, ?_⟩
    rw [show (Plan.node k' tc' [c]).kind.tasks = 3 from h3] at hs
    exact hs

end DD.Tree.Rec
