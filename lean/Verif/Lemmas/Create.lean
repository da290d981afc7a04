/-
What `start` returns.
-/
import Verif.Spec.Create
import Verif.Lemmas.MetricsRewrite
import Verif.Props.Specialise

namespace DD.Tree.Create

open DD.Tree DD.Tree.Rec

variable {Row U : Type} {route : Plan Row → Nat → Except Err (List U)} {fuel : Nat}

theorem mbind_ok {α β : Type} {x : M α} {f : α → M β} {b : β} (h : (x >>= f) = .ok b) : ∃ a, x = .ok a ∧ f a = .ok b := by
  cases x with
  | error e => cases h
  | ok a => exact ⟨a, rfl, h⟩

theorem lift_ok {α : Type} {x : Except Err α} {a : α} (h : lift x = .ok a) : x = .ok a := by
  cases x with
  | error e => cases h
  | ok b => cases h; rfl

theorem cutAll_eq (cs : List (Plan Row)) : cutAll cs = cs.map cut := by
  induction cs with
  | nil => rw [cutAll]; rfl
  | cons c cs ih => rw [cutAll, ih]; rfl

/-- The stage below boundary `b` was sent. -/
structure SentFor (route : Plan Row → Nat → Except Err (List U)) (fuel : Nat) (b : Plan Row) (s : List (Sent Row U))
    (r : Remote U) : Prop where
  local_ : ∃ c rest, b.children = c :: rest ∧ route (cut c) b.kind.tasks = .ok r.workers
    ∧ r.workers.length = b.kind.tasks ∧ s.length = b.kind.tasks
    ∧ ∀ (i : Nat) x, s[i]? = some x → x.stage = b.kind.num ∧ x.task = i ∧ x.count = b.kind.tasks
      ∧ r.workers[i]? = some x.url ∧ taskSpecialized fuel (cut c) ⟨i, b.kind.tasks⟩ = .ok x.plan
  num : r.num = b.kind.num

theorem sendTasks_inv {num tasks : Nat} {c : Plan Row} : ∀ {us : List U} {o : Nat} {l}, sendTasks fuel num tasks c o us = .ok l →
    l.length = us.length ∧ ∀ (i : Nat) x, l[i]? = some x → x.stage = num ∧ x.task = o + i ∧ x.count = tasks
      ∧ us[i]? = some x.url ∧ taskSpecialized fuel c ⟨o + i, tasks⟩ = .ok x.plan
  | [], o, l, h => by cases h; exact ⟨rfl, fun i x e => by simp at e⟩
  | u :: us, o, l, h => by
    obtain ⟨p, h1, h⟩ := mbind_ok h
    obtain ⟨rest, h2, h⟩ := mbind_ok h
    cases h
    obtain ⟨l1, l2⟩ := sendTasks_inv h2
    refine ⟨by simp [l1], fun i x e => ?_⟩
    cases i with
    | zero => cases e; exact ⟨rfl, rfl, rfl, rfl, h1⟩
    | succ i =>
      have := l2 i x (by simpa using e)
      rw [show o + 1 + i = o + (i + 1) by omega] at this
      simpa using this

/-- `start` on a node. -/
theorem start_inv {k : Kind Row} {tc cs h sent rem} (hs : start route fuel (.node k tc cs) = .ok (h, sent, rem)) :
    ∃ cs' s1 r1, startAll route fuel cs = .ok (cs', s1, r1) ∧
      ((k.isNet = false ∧ h = .node k tc cs' ∧ sent = s1 ∧ rem = r1)
      ∨ ∃ c rest urls s2, k.isNet = true ∧ cs' = c :: rest ∧ h = .node k tc [] ∧ route c k.tasks = .ok urls
        ∧ urls.length = k.tasks ∧ sendTasks fuel k.num k.tasks c 0 urls = .ok s2 ∧ sent = s1 ++ s2
        ∧ rem = r1 ++ [⟨k.num, urls⟩]) := by
  rw [start] at hs
  obtain ⟨⟨cs', s1, r1⟩, h1, hs⟩ := mbind_ok hs
  refine ⟨cs', s1, r1, h1, ?_⟩
  cases hk : k.isNet with
  | false =>
    simp only [hk, Bool.not_false, if_true] at hs
    cases hs
    exact .inl ⟨rfl, rfl, rfl, rfl⟩
  | true =>
    simp only [hk, Bool.not_true, Bool.false_eq_true, if_false] at hs
    cases cs' with
    | nil => cases hs
    | cons c rest =>
      obtain ⟨⟨s2, r2⟩, h2, hs⟩ := mbind_ok hs
      cases hs
      obtain ⟨urls, h3, h2⟩ := mbind_ok h2
      by_cases hl : urls.length ≠ k.tasks
      · rw [if_pos hl] at h2; cases h2
      · rw [if_neg hl] at h2
        obtain ⟨s3, h4, h2⟩ := mbind_ok h2
        cases h2
        exact .inr ⟨c, rest, urls, s2, rfl, rfl, rfl, lift_ok h3, by simpa using hl, h4, rfl, rfl⟩

mutual
theorem start_spec : ∀ {p h : Plan Row} {sent rem}, start route fuel p = .ok (h, sent, rem) → h = cut p ∧
    ∃ L : List (Plan Row × List (Sent Row U) × Remote U), (L.map (·.1)).Perm (Metrics.boundaries p)
      ∧ L.map (fun l => l.1.kind.num) = stageNums p
      ∧ sent = L.flatMap (·.2.1) ∧ rem = L.map (·.2.2) ∧ ∀ l ∈ L, SentFor route fuel l.1 l.2.1 l.2.2
  | .node k tc cs, h, sent, rem, hs => by
    obtain ⟨cs', s1, r1, h1, hs⟩ := start_inv hs
    obtain ⟨rfl, L, a1, a2, rfl, rfl, a5⟩ := startAll_spec h1
    rw [Metrics.boundaries, stageNums, cut]
    rcases hs with ⟨hk, rfl, rfl, rfl⟩ | ⟨c, rest, urls, s2, hk, e, rfl, e1, e2, e3, rfl, rfl⟩
    · refine ⟨by simp [hk], L, ?_, ?_, rfl, rfl, a5⟩
      · simpa [hk] using a1
      · simpa [hk] using a2
    · obtain ⟨y, ys, rfl⟩ : ∃ y ys, cs = y :: ys := by
        cases cs with
        | nil => rw [cutAll] at e; cases e
        | cons y ys => exact ⟨y, ys, rfl⟩
      rw [cutAll] at e
      cases e
      obtain ⟨t1, t2⟩ := sendTasks_inv e3
      refine ⟨by simp [hk], L ++ [(.node k tc (y :: ys), s2, ⟨k.num, urls⟩)], ?_, ?_, by simp, by simp, ?_⟩
      · simp only [hk, if_true, List.map_append, List.map_cons, List.map_nil]
        exact (List.Perm.append_right _ a1).trans List.perm_append_comm
      · rw [List.map_append, a2]; simp [hk, Plan.kind]
      · intro l hl
        rcases List.mem_append.mp hl with hl | hl
        · exact a5 l hl
        · rw [List.mem_singleton] at hl
          subst hl
          refine ⟨⟨y, ys, rfl, e1, e2, by simp only [Plan.kind]; omega, fun i x hx => ?_⟩, rfl⟩
          have := t2 i x hx
          simp only [Nat.zero_add] at this
          exact this
theorem startAll_spec : ∀ {cs hs : List (Plan Row)} {sent rem}, startAll route fuel cs = .ok (hs, sent, rem) → hs = cutAll cs ∧
    ∃ L : List (Plan Row × List (Sent Row U) × Remote U), (L.map (·.1)).Perm (Metrics.boundariesAll cs)
      ∧ L.map (fun l => l.1.kind.num) = stageNumsAll cs
      ∧ sent = L.flatMap (·.2.1) ∧ rem = L.map (·.2.2) ∧ ∀ l ∈ L, SentFor route fuel l.1 l.2.1 l.2.2
  | [], hs, sent, rem, h => by
    rw [startAll] at h
    cases h
    exact ⟨by rw [cutAll], [], by simp [Metrics.boundariesAll], by simp [stageNumsAll], rfl, rfl, by simp⟩
  | c :: cs, hs, sent, rem, h => by
    rw [startAll] at h
    obtain ⟨⟨c', s1, r1⟩, h1, h⟩ := mbind_ok h
    obtain ⟨⟨cs', s2, r2⟩, h2, h⟩ := mbind_ok h
    cases h
    obtain ⟨rfl, L, a1, a2, rfl, rfl, a5⟩ := start_spec h1
    obtain ⟨rfl, L', b1, b2, rfl, rfl, b5⟩ := startAll_spec h2
    refine ⟨by rw [cutAll], L ++ L', ?_, ?_, by simp, by simp, ?_⟩
    · rw [Metrics.boundariesAll, List.map_append]; exact a1.append b1
    · rw [stageNumsAll, List.map_append, a2, b2]
    · intro l hl
      rcases List.mem_append.mp hl with hl | hl
      · exact a5 l hl
      · exact b5 l hl
end

/-! ### Cut plans -/

theorem cut_children (k : Kind Row) (tc) (cs : List (Plan Row)) :
    (cut (.node k tc cs)).children = if k.isNet then [] else cs.map cut := by
  rw [cut, cutAll_eq]; rfl

theorem cut_kind (p : Plan Row) : (cut p).kind = p.kind := by
  cases p; rw [cut]; rfl

mutual
theorem hasNet_cut : ∀ p : Plan Row, hasNet (cut p) = hasNet p
  | .node k tc cs => by
    rw [cut, hasNet, hasNet]
    cases hk : k.isNet with
    | true => simp
    | false => simp only [Bool.false_or, Bool.false_eq_true, if_false]; exact hasNet_cutAll cs
theorem hasNet_cutAll : ∀ cs : List (Plan Row), hasNetAny (cutAll cs) = hasNetAny cs
  | [] => by rw [cutAll]
  | c :: cs => by rw [cutAll, hasNetAny, hasNetAny, hasNet_cut c, hasNet_cutAll cs]
end

mutual
theorem depth_cut : ∀ p : Plan Row, depth (cut p) ≤ depth p
  | .node k tc cs => by
    rw [cut, depth, depth]
    cases hk : k.isNet with
    | true => simp [depthAll]
    | false => simp only [Bool.false_eq_true, if_false]; exact Nat.add_le_add_right (depth_cutAll cs) 1
theorem depth_cutAll : ∀ cs : List (Plan Row), depthAll (cutAll cs) ≤ depthAll cs
  | [] => by rw [cutAll]
  | c :: cs => by
    rw [cutAll, depthAll, depthAll]
    have := depth_cut c
    have := depth_cutAll cs
    omega
end

/-- What a task meets in a cut plan, it meets in the plan. -/
theorem ctxAt_cut : ∀ {p : Plan Row} {ctx ctx' x'}, CtxAt ctx (cut p) ctx' x' → ∃ x, CtxAt ctx p ctx' x ∧ x' = cut x
  | .node k tc cs, ctx, ctx', x', h => by
    generalize hq : cut (.node k tc cs) = q at h
    have hq' := hq
    rw [cut, cutAll_eq] at hq'
    cases h with
    | root => exact ⟨_, .root, hq.symm⟩
    | child hn hc hi hat =>
      cases hq'
      simp only [hn, Bool.false_eq_true, if_false, List.getElem?_map, Option.map_eq_some_iff] at hi
      obtain ⟨c0, hi, rfl⟩ := hi
      have := List.mem_of_getElem? hi
      obtain ⟨x, h1, h2⟩ := ctxAt_cut hat
      exact ⟨x, .child hn hc hi h1, h2⟩
    | branch hm he hi hat =>
      cases hq'
      simp only [Kind.isNet, Bool.false_eq_true, if_false, List.getElem?_map, Option.map_eq_some_iff] at hi
      obtain ⟨c0, hi, rfl⟩ := hi
      have := List.mem_of_getElem? hi
      obtain ⟨x, h1, h2⟩ := ctxAt_cut hat
      exact ⟨x, .branch hm he hi h1, h2⟩
termination_by p => sizeOf p
decreasing_by all_goals (have := List.sizeOf_lt_of_mem ‹_ ∈ cs›; simp_wf; omega)

theorem ok_cut {ctx : TaskCtx} {p : Plan Row} (h : CtxOk ctx p ∧ LeavesOk ctx p) : CtxOk ctx (cut p) ∧ LeavesOk ctx (cut p) := by
  constructor
  · intro ctx' ws m tc cs hat
    obtain ⟨x, h1, h2⟩ := ctxAt_cut hat
    cases x with
    | node k tc' cs' =>
      rw [cut, cutAll_eq] at h2
      cases h2
      obtain ⟨es, a, b, c⟩ := h.1 _ _ _ _ _ h1
      exact ⟨es, a, b, by simpa [Kind.isNet] using c⟩
  · intro ctx' o vs tc cs hat
    obtain ⟨x, h1, h2⟩ := ctxAt_cut hat
    cases x with
    | node k tc' cs' =>
      rw [cut, cutAll_eq] at h2
      cases h2
      obtain ⟨rfl, b, c⟩ := h.2 _ _ _ _ _ h1
      exact ⟨by simp, b, c⟩

/-- A task's share, from what it meets. -/
theorem taskSpecialized_share {ctx : TaskCtx} {p : Plan Row} (hok : CtxOk ctx p ∧ LeavesOk ctx p) (hf : depth p ≤ fuel) :
    taskSpecialized fuel p ctx = .ok (share ctx p) := by
  have h1 := C26_ctx (S := Unit) specialiseNode fuel p ctx ()
  rw [downIn_share fuel p ctx hf hok.1 hok.2] at h1
  unfold taskSpecialized
  cases hd : downCtx (S := Unit) specialiseNode fuel p ctx () with
  | error e => rw [hd] at h1; cases h1
  | ok r =>
    rw [hd] at h1
    have h2 : (r.1, r.2.2) = ((⟨share ctx p, .cont⟩, ()) : Tr Row × Unit) := Except.ok.inj h1
    have h3 : r.1 = ⟨share ctx p, .cont⟩ := congrArg Prod.fst h2
    obtain ⟨r1, r2⟩ := r
    simp only at h3
    subst h3
    rfl

/-- Every task of every stage can be sent its share. -/
def Sendable (fuel : Nat) (b : Plan Row) : Prop :=
  ∃ c rest, b.children = c :: rest ∧ ∀ i < b.kind.tasks, ∃ w, taskSpecialized fuel (cut c) ⟨i, b.kind.tasks⟩ = .ok w

theorem sendTasks_ok {num tasks : Nat} {c : Plan Row} : ∀ {us : List U} {o : Nat}, o + us.length ≤ tasks →
    (∀ i < tasks, ∃ w, taskSpecialized fuel c ⟨i, tasks⟩ = .ok w) → ∃ l, sendTasks fuel num tasks c o us = .ok l
  | [], o, _, _ => ⟨[], rfl⟩
  | u :: us, o, hl, h => by
    simp only [List.length_cons] at hl
    obtain ⟨w, hw⟩ := h o (by omega)
    obtain ⟨l, hl⟩ := sendTasks_ok (us := us) (o := o + 1) (by omega) h
    refine ⟨⟨num, o, tasks, u, w⟩ :: l, ?_⟩
    rw [sendTasks, hw, show (Except.ok w >>= fun p => sendTasks fuel num tasks c (o + 1) us >>= fun rest =>
      (Except.ok (⟨num, o, tasks, u, p⟩ :: rest) : M (List (Sent Row U)))) = (sendTasks fuel num tasks c (o + 1) us >>= fun rest =>
      (Except.ok (⟨num, o, tasks, u, w⟩ :: rest) : M (List (Sent Row U)))) from rfl, hl]
    rfl

mutual
theorem start_ok (hr : ∀ c n, ∃ us, route c n = .ok us ∧ us.length = n) : ∀ {p : Plan Row},
    (∀ b ∈ Metrics.boundaries p, Sendable fuel b) → ∃ r, start route fuel p = .ok r
  | .node k tc cs, h => by
    rw [Metrics.boundaries] at h
    obtain ⟨⟨cs', s1, r1⟩, h1⟩ := startAll_ok hr (cs := cs) fun b hb => h b (List.mem_append.mpr (.inr hb))
    obtain ⟨rfl, -⟩ := startAll_spec h1
    cases hk : k.isNet with
    | false =>
      refine ⟨(.node k tc (cutAll cs), s1, r1), ?_⟩
      rw [start, h1]
      show (if (!k.isNet) = true then _ else _) = _
      rw [hk]; rfl
    | true =>
      obtain ⟨c, rest, e1, e2⟩ := h (.node k tc cs) (by simp [hk])
      simp only [Plan.children] at e1
      subst e1
      simp only [Plan.kind] at e2
      obtain ⟨us, u1, u2⟩ := hr (cut c) k.tasks
      obtain ⟨l, hl⟩ := sendTasks_ok (num := k.num) (us := us) (o := 0) (by omega) e2
      rw [cutAll] at h1
      refine ⟨(.node k tc [], s1 ++ l, r1 ++ [⟨k.num, us⟩]), ?_⟩
      rw [start, h1]
      show (if (!k.isNet) = true then _ else (sendStage route fuel k.num k.tasks (cut c) >>= fun _ => _)) = _
      have hss : sendStage route fuel k.num k.tasks (cut c) = .ok (l, ⟨k.num, us⟩) := by
        unfold sendStage
        rw [u1]
        show (if us.length ≠ k.tasks then _ else _) = _
        rw [if_neg (by simpa using u2), hl]
        rfl
      rw [hss, hk]
      rfl
theorem startAll_ok (hr : ∀ c n, ∃ us, route c n = .ok us ∧ us.length = n) : ∀ {cs : List (Plan Row)},
    (∀ b ∈ Metrics.boundariesAll cs, Sendable fuel b) → ∃ r, startAll route fuel cs = .ok r
  | [], _ => ⟨([], [], []), by rw [startAll]⟩
  | c :: cs, h => by
    rw [Metrics.boundariesAll] at h
    obtain ⟨⟨c', s1, r1⟩, h1⟩ := start_ok hr (p := c) fun b hb => h b (List.mem_append.mpr (.inl hb))
    obtain ⟨⟨cs', s2, r2⟩, h2⟩ := startAll_ok hr (cs := cs) fun b hb => h b (List.mem_append.mpr (.inr hb))
    exact ⟨(c' :: cs', s1 ++ s2, r1 ++ r2), by rw [startAll, h1, h2]; rfl⟩
end

mutual
theorem start_cut_fails : ∀ {p : Plan Row}, hasNet p = true → ∀ r, start route fuel (cut p) ≠ .ok r
  | .node k tc cs, hn, (h, s, r), e => by
    rw [cut] at e
    obtain ⟨cs', s1, r1, h1, h2⟩ := start_inv e
    cases hk : k.isNet with
    | true =>
      simp only [hk, if_true] at h1
      rw [startAll] at h1
      cases h1
      rcases h2 with ⟨h2, _⟩ | ⟨c, rest, _, _, _, h2, _⟩
      · rw [hk] at h2; cases h2
      · cases h2
    | false =>
      simp only [hk, Bool.false_eq_true, if_false] at h1
      rw [hasNet, hk] at hn
      exact startAll_cut_fails (by simpa using hn) _ h1
theorem startAll_cut_fails : ∀ {cs : List (Plan Row)}, hasNetAny cs = true → ∀ r, startAll route fuel (cutAll cs) ≠ .ok r
  | [], hn, _, _ => by rw [hasNetAny] at hn; cases hn
  | c :: cs, hn, r, e => by
    rw [cutAll, startAll] at e
    obtain ⟨r1, h1, e⟩ := mbind_ok e
    obtain ⟨r2, h2, e⟩ := mbind_ok e
    rw [hasNetAny, Bool.or_eq_true] at hn
    rcases hn with hn | hn
    · exact start_cut_fails hn _ h1
    · exact startAll_cut_fails hn _ h2
end

end DD.Tree.Create
