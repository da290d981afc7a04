/-
**C26** Plan traversals give each node the task count, or the task context, it is run with.
-/
import Verif.Lemmas.Recursion
import Verif.Props.PlanShape

namespace DD.Tree.Rec

open DD.Tree

variable {Row S : Type}

/-! ### The traversals for arbitrary visitors -/

/-- **C26** (bottom-up). For every plan, every visitor that does not return `Jump`, and enough fuel to reach the leaves,
the traversal does what handing the task counts down as an argument does. -/
theorem C26_up (f : Plan Row → Nat → S → M (Tr Row × S)) (hf : ∀ p t s r s', f p t s = .ok (r, s') → r.tnr ≠ .jump)
    (fuel : Nat) (p : Plan Row) (t : Nat) (s : S) (hfuel : depth p ≤ fuel) :
    (upTaskCount f fuel p t s).map (fun r => (r.1, r.2.2)) = up f t s p :=
  (up_sim f hf fuel p t [] s hfuel).map

/-- **C26** (top-down). For every plan, every visitor and every fuel. -/
theorem C26_down (f : Plan Row → Nat → S → M (Tr Row × S)) (fuel : Nat) (p : Plan Row) (t : Nat) (s : S) :
    (downTaskCount f fuel p t s).map (fun r => (r.1, r.2.2)) = down f fuel p t s :=
  (down_sim f fuel p t [] s).map

/-- **C26** (top-down, one task). For every plan, every visitor and every fuel. -/
theorem C26_ctx (f : Plan Row → TaskCtx → S → M (Tr Row × S)) (fuel : Nat) (p : Plan Row) (ctx : TaskCtx) (s : S) :
    (downCtx f fuel p ctx s).map (fun r => (r.1, r.2.2)) = downIn f fuel p (some ctx) s :=
  (downIn_sim f fuel p (some ctx) [] s).map

/-! ### What visitors that only look see -/

/-- A visitor that writes down what it sees. -/
def see {A : Type} (p : Plan Row) (a : A) (log : List (A × Plan Row)) : M (Tr Row × List (A × Plan Row)) :=
  .ok (⟨p, .cont⟩, log ++ [(a, p)])

mutual
theorem up_see (T : Nat) (log : List (Nat × Plan Row)) : ∀ p : Plan Row, up see T log p = .ok (⟨p, .cont⟩, log ++ postorder T p)
  | .node k tc cs => by
    unfold up postorder
    rw [upAll_see (childCount k T) log cs]
    simp [see, bind, Except.bind]
theorem upAll_see (count : Nat → Nat) (log : List (Nat × Plan Row)) : ∀ cs : List (Plan Row),
    upAll see count log cs = .ok (cs, false, log ++ postorderAll count cs)
  | [] => by simp [upAll, postorderAll]
  | c :: cs => by
    unfold upAll postorderAll
    rw [up_see (count 0) log c]
    simp only [bind, Except.bind, reduceCtorEq, if_false]
    rw [upAll_see _ _ cs]
    simp
end

/-- **C26** A bottom-up traversal visits every node once, children first and left to right, with the task count it is
run with. -/
theorem C26_up_order (p : Plan Row) (T fuel : Nat) (h : depth p ≤ fuel) :
    (upTaskCount see fuel p T []).map (fun r => (r.1, r.2.2)) = .ok (⟨p, .cont⟩, postorder T p) := by
  rw [C26_up see (fun p t s r s' h => by cases h; simp) fuel p T [] h, up_see]
  simp

theorem withChildren_self (p : Plan Row) : withChildren p p.children = p := by cases p; rfl

theorem down_see : ∀ (fuel : Nat) (p : Plan Row) (T : Nat) (log : List (Nat × Plan Row)), depth p ≤ fuel →
    down see fuel p T log = .ok (⟨p, .cont⟩, log ++ preorder T p)
  | 0, .node _ _ _, _, _, h => by simp [depth] at h
  | n + 1, .node k tc cs, T, log, h => by
    have hall : ∀ (l : List (Plan Row)) (count : Nat → Nat) (log : List (Nat × Plan Row)), (∀ c ∈ l, c ∈ cs) →
        eachUntilStop (down see n) count log l = .ok (l, false, log ++ preorderAll count l) := by
      intro l
      induction l with
      | nil => intro count log _; simp [eachUntilStop, preorderAll]
      | cons c l ih =>
        intro count log hl
        unfold eachUntilStop preorderAll
        rw [down_see n c (count 0) log (by
          have := depth_le (hl c (by simp))
          simp only [depth] at h; omega)]
        simp only [bind, Except.bind, reduceCtorEq, if_false]
        rw [ih _ _ (fun c hc => hl c (by simp [hc]))]
        simp
    unfold down preorder
    simp only [see, bind, Except.bind, Plan.kind, Plan.children]
    have := hall cs (childCount k T) (log ++ [(T, .node k tc cs)]) (fun _ h => h)
    rw [this]
    simp [withChildren]

/-- **C26** A top-down traversal visits every node once, parents first and left to right, with the task count it is run
with. -/
theorem C26_down_order (p : Plan Row) (T fuel : Nat) (h : depth p ≤ fuel) :
    (downTaskCount see fuel p T []).map (fun r => (r.1, r.2.2)) = .ok (⟨p, .cont⟩, preorder T p) := by
  rw [C26_down see fuel p T [], down_see fuel p T [] h]
  simp

mutual
theorem preorder_perm (T : Nat) : ∀ p : Plan Row, (postorder T p).Perm (preorder T p)
  | .node k tc cs => by
    unfold postorder preorder
    exact (List.perm_append_comm).trans (List.Perm.cons _ (preorderAll_perm _ cs))
theorem preorderAll_perm (count : Nat → Nat) : ∀ cs : List (Plan Row), (postorderAll count cs).Perm (preorderAll count cs)
  | [] => by simp [postorderAll, preorderAll]
  | c :: cs => by
    unfold postorderAll preorderAll
    exact (preorder_perm _ c).append (preorderAll_perm _ cs)
end

theorem mem_preorderAll (count : Nat → Nat) (t : Nat) (x : Plan Row) : ∀ (cs : List (Plan Row)),
    (t, x) ∈ preorderAll count cs ↔ ∃ i c, cs[i]? = some c ∧ (t, x) ∈ preorder (count i) c := by
  intro cs
  induction cs generalizing count with
  | nil => simp [preorderAll]
  | cons c cs ih =>
    unfold preorderAll
    rw [List.mem_append, ih]
    constructor
    · rintro (h | ⟨i, c', h, h'⟩)
      · exact ⟨0, c, rfl, h⟩
      · exact ⟨i + 1, c', h, h'⟩
    · rintro ⟨i, c', h, h'⟩
      cases i with
      | zero => cases h; exact .inl h'
      | succ i => exact .inr ⟨i, c', h, h'⟩

/-- **C26** The visited pairs are the nodes with the task counts they are run with. -/
theorem C26_counts : ∀ (p : Plan Row) (T t : Nat) (x : Plan Row), (t, x) ∈ preorder T p ↔ At T p t x
  | .node k tc cs, T, t, x => by
    unfold preorder
    rw [List.mem_cons, mem_preorderAll]
    constructor
    · rintro (h | ⟨i, c, hc, h⟩)
      · cases h; exact .root
      · have := List.mem_of_getElem? hc
        exact .child hc ((C26_counts c _ t x).mp h)
    · intro h
      cases h with
      | root => exact .inl rfl
      | child hc h =>
        have := List.mem_of_getElem? hc
        exact .inr ⟨_, _, hc, (C26_counts _ _ t x).mpr h⟩
termination_by p => sizeOf p
decreasing_by all_goals (have := List.sizeOf_lt_of_mem ‹_ ∈ cs›; simp_wf; omega)

/-! ### Task contexts -/

theorem childCtx_mem {ws m} {ctx : TaskCtx} {i ctx₁} (h : childCtx (Row := Row) (.ciu ws m) ctx i = some ctx₁) :
    (i, ctx₁) ∈ m.getD ctx.index [] := by
  unfold childCtx at h
  simp only [Option.map_eq_some_iff] at h
  obtain ⟨e, he, rfl⟩ := h
  have := List.mem_of_getLast? he
  simp only [List.mem_filter, beq_iff_eq] at this
  obtain ⟨h1, h2⟩ := this
  rwa [← h2]

theorem getD_eq {α} {m : List (List α)} {i : Nat} {es : List α} (h : m[i]? = some es) : m.getD i [] = es := by simp [h]

/-- In a union with distinct children per task the context of a child is the one it is assigned. -/
theorem childCtx_iff {ws} {m : Union.TaskMap} {ctx : TaskCtx} {es} (hm : m[ctx.index]? = some es)
    (hn : (es.map (·.1)).Nodup) (i : Nat) (ctx₁ : TaskCtx) :
    childCtx (Row := Row) (.ciu ws m) ctx i = some ctx₁ ↔ (i, ctx₁) ∈ es := by
  refine ⟨fun h => getD_eq hm ▸ childCtx_mem h, fun h => ?_⟩
  unfold childCtx
  simp only [getD_eq hm]
  clear hm
  have hf : es.filter (fun e => e.1 == i) = [(i, ctx₁)] := by
    induction es with
    | nil => simp at h
    | cons e es ih =>
      simp only [List.map_cons, List.nodup_cons, List.mem_map, not_exists, not_and] at hn
      rw [List.filter_cons]
      rcases List.mem_cons.mp h with rfl | h'
      · simp only [beq_self_eq_true, if_true, List.cons.injEq, true_and, List.filter_eq_nil_iff, beq_iff_eq]
        exact fun e he => hn.1 e he
      · have : (e.1 == i) = false := by
          have := hn.1 _ h'
          simp only [beq_eq_false_iff_ne]
          exact fun h => this h.symm
        rw [this]
        simpa using ih hn.2 h'
  rw [hf]
  rfl

theorem childCtx_other {k : Kind Row} (hc : ∀ ws m, k ≠ .ciu ws m) (ctx : TaskCtx) (i : Nat) : childCtx k ctx i = some ctx := by
  cases k
  case ciu ws m => exact absurd rfl (hc ws m)
  all_goals rfl

theorem isCiu (k : Kind Row) : (∃ ws m, k = .ciu ws m) ∨ ∀ ws m, k ≠ .ciu ws m := by
  cases k
  case ciu ws m => exact .inl ⟨ws, m, rfl⟩
  all_goals exact .inr (by rintro _ _ ⟨⟩)

theorem CtxOk.child {ctx : TaskCtx} {k : Kind Row} {tc cs} (h : CtxOk ctx (.node k tc cs)) (hn : k.isNet = false)
    {i : Nat} {c : Plan Row} (hc : cs[i]? = some c) {ctx₁} (h1 : childCtx k ctx i = some ctx₁) : CtxOk ctx₁ c := by
  intro ctx' ws m tc' cs' hat
  rcases isCiu k with ⟨ws', m', rfl⟩ | hk
  · obtain ⟨es, hes, _⟩ := h ctx ws' m' tc cs .root
    have := childCtx_mem h1
    rw [getD_eq hes] at this
    exact h _ _ _ _ _ (.branch hes this hc hat)
  · rw [childCtx_other hk] at h1
    cases h1
    exact h _ _ _ _ _ (.child hn hk hc hat)

theorem CtxOk.assigned {ctx : TaskCtx} {p : Plan Row} (h : CtxOk ctx p) : assigned p ctx = true := by
  obtain ⟨k, tc, cs⟩ := p
  rcases isCiu k with ⟨ws, m, rfl⟩ | hk
  · obtain ⟨es, hes, _, hl⟩ := h ctx ws m tc cs .root
    simp only [Rec.assigned, Plan.kind, Plan.children, getD_eq hes, Bool.and_eq_true, decide_eq_true_eq, List.all_eq_true]
    exact ⟨(List.getElem?_eq_some_iff.mp hes).1, fun e he => decide_eq_true (hl e he)⟩
  · cases k
    case ciu ws m => exact absurd rfl (hk ws m)
    all_goals rfl

theorem downIn_see : ∀ (fuel : Nat) (p : Plan Row) (ctx : TaskCtx) (log : List (TaskCtx × Plan Row)), depth p ≤ fuel →
    CtxOk ctx p → downIn see fuel p (some ctx) log = .ok (⟨p, .cont⟩, log ++ preorderIn ctx p)
  | 0, .node _ _ _, _, _, h, _ => by simp [depth] at h
  | n + 1, .node k tc cs, ctx, log, h, hok => by
    have hall : ∀ (l : List (Plan Row)) (arg : Nat → Option TaskCtx) (log : List (TaskCtx × Plan Row)),
        (∀ c ∈ l, c ∈ cs) → (∀ (i : Nat) c ctx₁, l[i]? = some c → arg i = some ctx₁ → CtxOk ctx₁ c) →
        eachUntilStop (downIn see n) arg log l = .ok (l, false, log ++ preorderInAll arg l) := by
      intro l
      induction l with
      | nil => intro arg log _ _; simp [eachUntilStop, preorderInAll]
      | cons c l ih =>
        intro arg log hl hok
        have hd : depth c ≤ n := by
          have := depth_le (hl c (by simp))
          simp only [depth] at h; omega
        have hrest := fun log => ih (fun i => arg (i + 1)) log (fun c hc => hl c (by simp [hc]))
          (fun i c ctx₁ hc ha => hok (i + 1) c ctx₁ hc ha)
        unfold eachUntilStop preorderInAll
        cases ha : arg 0 with
        | none =>
          obtain ⟨n, rfl⟩ : ∃ n', n = n' + 1 := ⟨n - 1, by cases c; simp [depth] at hd; omega⟩
          simp only [downIn, bind, Except.bind, reduceCtorEq, if_false]
          rw [hrest]
          simp
        | some ctx₁ =>
          rw [downIn_see n c ctx₁ log hd (hok 0 c ctx₁ rfl ha)]
          simp only [bind, Except.bind, reduceCtorEq, if_false]
          rw [hrest]
          simp
    unfold downIn preorderIn
    simp only [see, bind, Except.bind]
    cases hn : k.isNet with
    | true =>
      rw [if_pos (show (Plan.node k tc cs).kind.isNet = true from hn)]
      simp
    | false =>
      rw [if_neg (show ¬ (Plan.node k tc cs).kind.isNet = true by simp [Plan.kind, hn]), hok.assigned]
      simp only [Bool.not_true, Bool.false_eq_true, if_false, Plan.kind, Plan.children]
      rw [hall cs _ _ (fun _ h => h) (fun i c ctx₁ hc ha => hok.child hn hc ha)]
      simp [withChildren]

theorem mem_preorderInAll (arg : Nat → Option TaskCtx) (ctx' : TaskCtx) (x : Plan Row) : ∀ (cs : List (Plan Row)),
    (ctx', x) ∈ preorderInAll arg cs ↔ ∃ i c ctx₁, cs[i]? = some c ∧ arg i = some ctx₁ ∧ (ctx', x) ∈ preorderIn ctx₁ c := by
  intro cs
  induction cs generalizing arg with
  | nil => simp [preorderInAll]
  | cons c cs ih =>
    unfold preorderInAll
    rw [List.mem_append, ih]
    constructor
    · rintro (h | ⟨i, c', ctx₁, h, h', h''⟩)
      · split at h
        · simp at h
        · rename_i ctx₁ ha
          exact ⟨0, c, ctx₁, rfl, ha, h⟩
      · exact ⟨i + 1, c', ctx₁, h, h', h''⟩
    · rintro ⟨i, c', ctx₁, h, h', h''⟩
      cases i with
      | zero => cases h; rw [h']; exact .inl h''
      | succ i => exact .inr ⟨i, c', ctx₁, h, h', h''⟩

theorem preorderIn_iff : ∀ (p : Plan Row) (ctx ctx' : TaskCtx) (x : Plan Row), CtxOk ctx p →
    ((ctx', x) ∈ preorderIn ctx p ↔ CtxAt ctx p ctx' x)
  | .node k tc cs, ctx, ctx', x, hok => by
    unfold preorderIn
    rw [List.mem_cons]
    constructor
    · rintro (h | h)
      · cases h; exact .root
      · cases hn : k.isNet with
        | true => simp [hn] at h
        | false =>
          rw [hn, if_neg (by simp), mem_preorderInAll] at h
          obtain ⟨i, c, ctx₁, hc, ha, h⟩ := h
          have := List.mem_of_getElem? hc
          have ih := (preorderIn_iff c ctx₁ ctx' x (hok.child hn hc ha)).mp h
          rcases isCiu k with ⟨ws, m, rfl⟩ | hk
          · obtain ⟨es, hes, hd, _⟩ := hok ctx ws m tc cs .root
            exact .branch hes ((childCtx_iff hes hd i ctx₁).mp ha) hc ih
          · rw [childCtx_other hk] at ha
            cases ha
            exact .child hn hk hc ih
    · intro h
      cases h with
      | root => exact .inl rfl
      | @child _ _ _ _ i c _ _ hn hk hc h =>
        have := List.mem_of_getElem? hc
        refine .inr ?_
        rw [hn, if_neg (by simp), mem_preorderInAll]
        have ha := childCtx_other hk ctx i
        exact ⟨i, c, ctx, hc, ha, (preorderIn_iff c ctx ctx' x (hok.child hn hc ha)).mpr h⟩
      | @branch _ ws m _ _ es i ctx₁ c _ _ hes hi hc h =>
        have := List.mem_of_getElem? hc
        obtain ⟨es', hes', hd, _⟩ := hok ctx ws m tc cs .root
        rw [hes] at hes'
        cases hes'
        have ha := (childCtx_iff (ws := ws) (Row := Row) hes hd i ctx₁).mpr hi
        refine .inr ?_
        rw [if_neg (by simp [Kind.isNet]), mem_preorderInAll]
        exact ⟨i, c, ctx₁, hc, ha, (preorderIn_iff c ctx₁ ctx' x (hok.child rfl hc ha)).mpr h⟩
termination_by p => sizeOf p
decreasing_by all_goals (have := List.sizeOf_lt_of_mem ‹_ ∈ cs›; simp_wf; omega)

/-- **C26** A top-down traversal for one task visits every node that task runs once, parents first and left to right, in
the context the task runs it in, and no other node. -/
theorem C26_ctx_order (p : Plan Row) (ctx : TaskCtx) (fuel : Nat) (h : depth p ≤ fuel) (hok : CtxOk ctx p) :
    (downCtx see fuel p ctx []).map (fun r => (r.1, r.2.2)) = .ok (⟨p, .cont⟩, preorderIn ctx p)
    ∧ ∀ ctx' x, (ctx', x) ∈ preorderIn ctx p ↔ CtxAt ctx p ctx' x := by
  refine ⟨?_, fun ctx' x => preorderIn_iff p ctx ctx' x hok⟩
  rw [C26_ctx see fuel p ctx [], downIn_see fuel p ctx [] h hok]
  simp

/-! ### The read-only traversals -/

/-- The nodes below one child. -/
def belowOf (cs : List (Plan Row)) (e : Union.Entry) : List (TaskCtx × Plan Row) :=
  match cs[e.1]? with
  | none => []
  | some c => preorderIn e.2 c

theorem preorderInAll_eq : ∀ (cs : List (Plan Row)) (arg : Nat → Option TaskCtx),
    preorderInAll arg cs = (List.range cs.length).flatMap fun i => match arg i with
      | none => []
      | some ctx => belowOf cs (i, ctx)
  | [], _ => by simp [preorderInAll]
  | c :: cs, arg => by
    rw [List.length_cons, List.range_succ_eq_map, List.flatMap_cons, List.flatMap_map]
    unfold preorderInAll
    rw [preorderInAll_eq cs]
    congr 1

theorem applyNth_eq : ∀ (cs : List (Plan Row)) (i : Nat) (ctx : TaskCtx),
    applyNth cs i ctx = match cs[i]? with
      | none => .error (some (.panic "index out of bounds"))
      | some c => applyCtx c ctx
  | [], i, ctx => by simp [applyNth]
  | c :: cs, 0, ctx => by simp [applyNth]
  | c :: cs, i + 1, ctx => by
    unfold applyNth
    rw [applyNth_eq cs i ctx]
    simp

theorem entries_perm (cs : List (Plan Row)) (es : List Union.Entry) (hn : (es.map (·.1)).Nodup)
    (hl : ∀ e ∈ es, e.1 < cs.length) {ws} {m : Union.TaskMap} {ctx : TaskCtx} (hm : m[ctx.index]? = some es) :
    (es.flatMap (belowOf cs)).Perm (preorderInAll (childCtx (Row := Row) (.ciu ws m) ctx) cs) := by
  rw [preorderInAll_eq]
  have h1 := (buckets_perm (fun e : Union.Entry => e.1) cs.length es hl).flatMap_right (belowOf cs)
  refine h1.symm.trans ?_
  rw [List.flatMap_assoc]
  apply flatMap_perm_congr
  intro i hi
  have key : ∀ ctx₁, childCtx (Row := Row) (.ciu ws m) ctx i = some ctx₁ ↔ (i, ctx₁) ∈ es :=
    fun ctx₁ => childCtx_iff hm hn i ctx₁
  have hnd : (es.filter fun e => e.1 = i).length ≤ 1 := by
    clear hm key h1 hl
    induction es with
    | nil => simp
    | cons e es ih =>
      simp only [List.map_cons, List.nodup_cons, List.mem_map, not_exists, not_and] at hn
      rw [List.filter_cons]
      by_cases he : e.1 = i
      · have : es.filter (fun e => e.1 = i) = [] := by
          simp only [List.filter_eq_nil_iff, decide_eq_true_eq]
          exact fun e' he' h' => hn.1 e' he' (h'.trans he.symm)
        simp [he, this]
      · simpa [he] using ih hn.2
  cases hc : childCtx (Row := Row) (.ciu ws m) ctx i with
  | none =>
    have : es.filter (fun e => e.1 = i) = [] := by
      simp only [List.filter_eq_nil_iff, decide_eq_true_eq]
      rintro ⟨j, c⟩ he rfl
      have := (key c).mpr he
      rw [hc] at this
      cases this
    simp [this]
  | some ctx₁ =>
    have hmem : (i, ctx₁) ∈ es.filter fun e => e.1 = i := by
      simpa using (key ctx₁).mp hc
    have : es.filter (fun e => e.1 = i) = [(i, ctx₁)] := by
      generalize es.filter (fun e => e.1 = i) = l at hnd hmem
      match l with
      | [] => simp at hmem
      | [a] => simp at hmem; rw [hmem]
      | a :: b :: l => simp at hnd
    simp [this]

/-- `apply_with_dt_ctx` sees the same nodes. -/
theorem apply_perm : ∀ (p : Plan Row) (ctx : TaskCtx), CtxOk ctx p →
    ∃ l, applyCtx p ctx = .ok l ∧ l.Perm (preorderIn ctx p)
  | .node k tc cs, ctx, hok => by
    rcases isCiu k with ⟨ws, m, rfl⟩ | hk
    · obtain ⟨es, hes, hd, hl⟩ := hok ctx ws m tc cs .root
      have hent : ∀ es' : List Union.Entry, (∀ e ∈ es', e ∈ es) →
          ∃ l, applyEntries cs es' = .ok l ∧ l.Perm (es'.flatMap (belowOf cs)) := by
        intro es'
        induction es' with
        | nil => intro _; exact ⟨[], by simp [applyEntries], by simp⟩
        | cons e es' ih =>
          intro hsub
          obtain ⟨l, h1, h2⟩ := ih (fun e he => hsub e (by simp [he]))
          have he := hsub e (by simp)
          have hlt := hl e he
          have hget : cs[e.1]? = some cs[e.1] := List.getElem?_eq_getElem hlt
          have hmem : cs[e.1] ∈ cs := List.getElem_mem hlt
          obtain ⟨l', h3, h4⟩ := apply_perm cs[e.1] e.2 (hok.child rfl hget ((childCtx_iff hes hd e.1 e.2).mpr he))
          refine ⟨l' ++ l, ?_, ?_⟩
          · unfold applyEntries
            rw [applyNth_eq, hget]
            simp only
            rw [h3, h1]
            rfl
          · rw [List.flatMap_cons]
            refine List.Perm.append ?_ h2
            unfold belowOf
            rw [hget]
            exact h4
      obtain ⟨l, h1, h2⟩ := hent es (fun _ h => h)
      refine ⟨(ctx, .node (.ciu ws m) tc cs) :: l, ?_, ?_⟩
      · unfold applyCtx
        simp only [hes]
        rw [h1]; rfl
      · unfold preorderIn
        rw [if_neg (by simp [Kind.isNet])]
        exact List.Perm.cons _ (h2.trans (entries_perm cs es hd hl hes))
    · have hall : ∀ l : List (Plan Row), (∀ c ∈ l, c ∈ cs ∧ CtxOk ctx c) →
          ∃ r, applyAll l ctx = .ok r ∧ r.Perm (preorderInAll (fun _ => some ctx) l) := by
        intro l
        induction l with
        | nil => intro _; exact ⟨[], by simp [applyAll], by simp [preorderInAll]⟩
        | cons c l ih =>
          intro hl
          obtain ⟨r, h1, h2⟩ := ih (fun c hc => hl c (by simp [hc]))
          have hmem := (hl c (by simp)).1
          obtain ⟨r', h3, h4⟩ := apply_perm c ctx (hl c (by simp)).2
          refine ⟨r' ++ r, ?_, ?_⟩
          · unfold applyAll
            rw [h3, h1]; rfl
          · unfold preorderInAll
            exact h4.append h2
      have hf : childCtx k ctx = fun _ => some ctx := funext fun i => childCtx_other hk ctx i
      have happ : applyCtx (.node k tc cs) ctx = (do
          let rest ← if k.isNet then .ok [] else applyAll cs ctx
          .ok ((ctx, .node k tc cs) :: rest)) := by
        unfold applyCtx
        cases k
        case ciu ws m => exact absurd rfl (hk ws m)
        all_goals rfl
      rw [happ]
      unfold preorderIn
      cases hn : k.isNet with
      | true => exact ⟨[(ctx, .node k tc cs)], by simp [bind, Except.bind], by simp⟩
      | false =>
        obtain ⟨r, h1, h2⟩ := hall cs (fun c hc => by
          obtain ⟨i, hi, rfl⟩ := List.getElem_of_mem hc
          exact ⟨hc, hok.child hn (List.getElem?_eq_getElem hi) (childCtx_other hk ctx i)⟩)
        refine ⟨(ctx, .node k tc cs) :: r, ?_, ?_⟩
        · simp only [Bool.false_eq_true, if_false]
          rw [h1]; rfl
        · simp only [Bool.false_eq_true, if_false, hf]
          exact List.Perm.cons _ h2
termination_by p => sizeOf p
decreasing_by all_goals (have := List.sizeOf_lt_of_mem ‹_ ∈ cs›; simp_wf; omega)

/-- **C26** `apply_with_dt_ctx` visits every node the task runs once, in the context the task runs it in, and no other. -/
theorem C26_apply (p : Plan Row) (ctx : TaskCtx) (hok : CtxOk ctx p) :
    ∃ l, applyCtx p ctx = .ok l ∧ l.Perm (preorderIn ctx p) ∧ ∀ ctx' x, (ctx', x) ∈ l ↔ CtxAt ctx p ctx' x := by
  obtain ⟨l, h1, h2⟩ := apply_perm p ctx hok
  exact ⟨l, h1, h2, fun ctx' x => h2.mem_iff.trans (preorderIn_iff p ctx ctx' x hok)⟩

/-! ### Driver paths -/

mutual
theorem mem_driverPath (x : Plan Row) : ∀ p : Plan Row, (∀ y, DriverAt p y → ∀ m s tc cs, y = .node (.join m s) tc cs → cs.length = 2) →
    (x ∈ driverPath p ↔ DriverAt p x)
  | .node k tc cs, h => by
    by_cases hj : ∃ m s, k = .join m s
    · obtain ⟨m, s, rfl⟩ := hj
      have hl := h _ .root m s tc cs rfl
      match cs, hl, h with
      | [l, r], _, h =>
        unfold driverPath
        rw [List.mem_cons, mem_driverPath x r (fun y hy => h y (.probe hy))]
        constructor
        · rintro (rfl | h)
          · exact .root
          · exact .probe h
        · intro h
          cases h with
          | root => exact .inl rfl
          | probe h => exact .inr h
          | child hk => exact absurd rfl (hk m s)
    · have hk : ∀ m s, k ≠ .join m s := fun m s e => hj ⟨m, s, e⟩
      have hd : driverPath (.node k tc cs) = .node k tc cs :: driverPathAll cs := by
        unfold driverPath
        cases k
        case join m s => exact absurd rfl (hk m s)
        all_goals rfl
      rw [hd, List.mem_cons, mem_driverPathAll x cs (fun c hc y hy => h y (.child hk hc hy))]
      constructor
      · rintro (rfl | ⟨c, hc, h⟩)
        · exact .root
        · exact .child hk hc h
      · intro h
        cases h with
        | root => exact .inl rfl
        | probe h => exact absurd rfl (hk _ _)
        | child _ hc h => exact .inr ⟨_, hc, h⟩
theorem mem_driverPathAll (x : Plan Row) : ∀ cs : List (Plan Row),
    (∀ c ∈ cs, ∀ y, DriverAt c y → ∀ m s tc cs, y = .node (.join m s) tc cs → cs.length = 2) →
    (x ∈ driverPathAll cs ↔ ∃ c ∈ cs, DriverAt c x)
  | [], _ => by simp [driverPathAll]
  | c :: cs, h => by
    unfold driverPathAll
    rw [List.mem_append, mem_driverPath x c (h c (by simp)), mem_driverPathAll x cs (fun c hc => h c (by simp [hc]))]
    simp
end

/-- **C26** `apply_driver_path` visits exactly the nodes that are not below the build side of a join, for every plan
whose joins have two inputs. -/
theorem C26_driver_path (p : Plan Row) (h : ∀ y, DriverAt p y → ∀ m s tc cs, y = .node (.join m s) tc cs → cs.length = 2)
    (x : Plan Row) : x ∈ driverPath p ↔ DriverAt p x := mem_driverPath x p h

/-! ### `prepare_network_boundaries` as a traversal -/

/-- The visitor of `prepare_network_boundaries`. -/
def prepareVisit (p : Plan Row) (t id : Nat) : M (Tr Row × Nat) :=
  match prepareNode false p t id with
  | .error e => .error (some e)
  | .ok (p, id) => .ok (⟨p, .cont⟩, id)

mutual
theorem up_prepare : ∀ (p : Plan Row) (t id : Nat), up prepareVisit t id p = match prepare false p t id with
    | .error e => .error (some e)
    | .ok (p, id) => .ok (⟨p, .cont⟩, id)
  | .node k tc cs, t, id => by
    have h := upAll_prepare cs (childCount k t) id
    unfold up prepare
    rw [h, childCounts_eq]
    cases hp : prepareAll false cs ((List.range cs.length).map (childCount k t)) id with
    | error e => rfl
    | ok r => rfl
theorem upAll_prepare : ∀ (cs : List (Plan Row)) (count : Nat → Nat) (id : Nat), upAll prepareVisit count id cs
    = match prepareAll false cs ((List.range cs.length).map count) id with
      | .error e => .error (some e)
      | .ok (cs, id) => .ok (cs, false, id)
  | [], count, id => by simp [upAll, prepareAll]
  | c :: cs, count, id => by
    have h1 := up_prepare c (count 0) id
    have hr : (List.range (c :: cs).length).map count = count 0 :: (List.range cs.length).map fun i => count (i + 1) := by
      simp [List.range_succ_eq_map]
    rw [hr]
    unfold upAll prepareAll
    rw [h1]
    cases hp : prepare false c (count 0) id with
    | error e => rfl
    | ok r =>
      obtain ⟨c', id'⟩ := r
      simp only [bind, Except.bind, reduceCtorEq, if_false]
      rw [upAll_prepare cs (fun i => count (i + 1)) id']
      cases hq : prepareAll false cs ((List.range cs.length).map fun i => count (i + 1)) id' with
      | error e => rfl
      | ok r => rfl
end

/-- **C26** The pass that prepares the boundaries, written with the traversal, is the recursive `prepare` the other
theorems are about. -/
theorem C26_prepare (fuel : Nat) (p : Plan Row) (t : Nat) (hfuel : depth p ≤ fuel) :
    prepareTraversal fuel p t = match prepare false p t 1 with
      | .error e => .error (some e)
      | .ok (p, _) => .ok p := by
  have h := C26_up (S := Nat) prepareVisit (fun p t s r s' h => by
    unfold prepareVisit at h
    split at h
    · cases h
    · cases h; simp) fuel p t 1 hfuel
  rw [up_prepare] at h
  have hu : prepareTraversal fuel p t = (do
      let (r, _) ← upTaskCount (S := Nat) prepareVisit fuel p t 1
      .ok r.data) := rfl
  rw [hu]
  cases hx : upTaskCount (S := Nat) prepareVisit fuel p t 1 with
  | error e =>
    rw [hx] at h
    cases hp : prepare false p t 1 with
    | error e' =>
      rw [hp] at h
      exact congrArg Except.error (Except.error.inj h)
    | ok r => rw [hp] at h; cases h
  | ok r =>
    rw [hx] at h
    cases hp : prepare false p t 1 with
    | error e' => rw [hp] at h; cases h
    | ok r' =>
      rw [hp] at h
      have := congrArg (fun z => z.1.data) (Except.ok.inj h)
      exact congrArg Except.ok this

/-! ### A visitor that returns `Jump` -/

namespace Demo

/-- A leaf of the head stage. -/
def last : Plan Nat := fresh (.leaf [[7]]) []

/-- A union of a coalesce over three tasks and a leaf. -/
def two : Plan Nat :=
  fresh .union [fresh (.netCoalesce 3 3 1) [fresh (.op (.det fun as => as.getD 0 []) none) [fresh (.leaf [[1]]) []]], last]

/-- The rows of a leaf. -/
def rowsOf : Plan Nat → List (List Nat)
  | .node (.leaf ps) _ _ => ps
  | _ => []

/-- Writes down the counts of leaves, and jumps over what is above them. -/
def jumpy (p : Plan Nat) (t : Nat) (log : List (Nat × List (List Nat))) : M (Tr Nat × List (Nat × List (List Nat))) :=
  if p.children.isEmpty then .ok (⟨p, .jump⟩, log ++ [(t, rowsOf p)]) else .ok (⟨p, .cont⟩, log)

def seen {A : Type} (r : M (Tr Nat × List Nat × List A)) : List A :=
  match r with
  | .ok (_, _, s) => s
  | .error _ => []

end Demo

/-- **C26 is false** for bottom-up visitors that return `Jump`: the nodes that are jumped over leave their counts on the
stack, so that a node of another stage is visited with one of them. Here the last leaf belongs to the head stage, which
one task runs, and is visited with the three tasks of the stage below the coalesce. No visitor in the code does so. -/
theorem C26_up_jump_false : At 1 Demo.two 1 Demo.last ∧ (∀ t, At 1 Demo.two t Demo.last → t = 1)
    ∧ (3, [[7]]) ∈ Demo.seen (upTaskCount Demo.jumpy 10 Demo.two 1 []) := by
  refine ⟨.child (i := 1) rfl .root, ?_, by decide⟩
  intro t h
  have := (C26_counts Demo.two 1 t Demo.last).mpr h
  simp only [Demo.two, Demo.last, fresh, preorder, preorderAll, List.mem_cons, List.mem_append, Prod.mk.injEq,
    Plan.node.injEq, reduceCtorEq, false_and, and_false, false_or, or_false, List.not_mem_nil, Kind.leaf.injEq,
    List.cons.injEq] at this
  simpa [childCount] using this

/-! ### The theorems apply -/

/-- Looking at the nodes of a plan with a boundary in a branch of an isolated union. -/
def Demo.nested : Plan Nat :=
  fresh (.ciu [] [[(0, ⟨0, 1⟩)], [(1, ⟨0, 2⟩)], [(1, ⟨1, 2⟩)]])
    [fresh (.netCoalesce 3 3 1) [fresh (.leaf [[1]]) []], fresh (.leaf [[2], [3]]) []]

example : Demo.seen (upTaskCount (fun p t l => .ok (⟨p, .cont⟩, l ++ [(t, Demo.rowsOf p)])) 5 Demo.nested 3 [])
    = [(3, [[1]]), (1, []), (2, [[2], [3]]), (3, [])] := by decide
example : depth Demo.nested ≤ 5 := by decide

def Demo.visited (r : M (List (TaskCtx × Plan Nat))) : List (Nat × Nat × List (List Nat)) :=
  match r with
  | .ok l => l.map fun e => (e.1.index, e.1.count, Demo.rowsOf e.2)
  | .error _ => []

/-- The third task runs the second branch only, as the second of two. -/
example : CtxAt ⟨2, 3⟩ Demo.nested ⟨1, 2⟩ (fresh (.leaf [[2], [3]]) [])
    ∧ Demo.visited (applyCtx Demo.nested ⟨2, 3⟩) = [(2, 3, []), (1, 2, [[2], [3]])] :=
  ⟨.branch (i := 1) (es := [(1, ⟨1, 2⟩)]) rfl (by simp) rfl .root, by
    simp [Demo.nested, fresh, applyCtx, applyEntries, applyNth, applyAll, Demo.visited, Demo.rowsOf, Kind.isNet, bind,
      Except.bind]⟩

theorem Demo.nested_ok : CtxOk ⟨2, 3⟩ Demo.nested := by
  intro ctx' ws m tc cs hat
  cases hat with
  | root => exact ⟨_, rfl, by decide, by decide⟩
  | child _ hk => exact absurd rfl (hk _ _)
  | branch h1 h2 h3 hat =>
    cases h1
    simp only [List.mem_cons, List.not_mem_nil, or_false, Prod.mk.injEq] at h2
    obtain ⟨rfl, rfl⟩ := h2
    cases h3
    cases hat with
    | child _ _ hc => cases hc

/-- Of a join, the driver path has the probe side. -/
example : (driverPath (fresh (.join .collect ⟨.inner, fun _ _ => true, fun _ _ => 0, fun r _ => r, id, id, none⟩)
    [fresh (.leaf [[1]]) [], fresh (.leaf [[2]]) []])).map Demo.rowsOf = [[], [[2]]] := by decide

end DD.Tree.Rec
