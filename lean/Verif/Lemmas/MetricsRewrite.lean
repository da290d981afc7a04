/-
Positions visited by tasks, and the map of metrics by node.
-/
import Verif.Spec.MetricsRewrite
import Verif.Props.Specialise

namespace DD.Metrics

open DD.Tree DD.Tree.Rec

variable {Row V : Type}

theorem visitNth_eq : ∀ (cs : List (Plan Row)) (i : Nat) (ctx : TaskCtx),
    visitNth cs i ctx = match cs[i]? with
      | none => .error (some (.panic "index out of bounds"))
      | some c => visit c ctx
  | [], i, ctx => by simp [visitNth]
  | c :: cs, 0, ctx => by simp [visitNth]
  | c :: cs, i + 1, ctx => by
    unfold visitNth
    rw [visitNth_eq cs i ctx]
    simp

theorem visit_other {k : Kind Row} (hk : ∀ ws m, k ≠ .ciu ws m) (tc) (cs : List (Plan Row)) (ctx : TaskCtx) :
    visit (.node k tc cs) ctx = (do
      let rest ← if k.isNet then .ok [] else visitAll 0 cs ctx
      .ok ([] :: rest)) := by
  unfold visit
  cases k
  case ciu ws m => exact absurd rfl (hk ws m)
  all_goals rfl

theorem shareAll_get (cs : List (Plan Row)) (arg : Nat → Option TaskCtx) {i : Nat} {c : Plan Row} (hc : cs[i]? = some c)
    {ctx : TaskCtx} (ha : arg i = some ctx) : (shareAll arg cs)[i]? = some (share ctx c) := by
  rw [shareAll_eq, List.getElem?_mapIdx, hc]
  simp [ha]

/-- A task visits each node it runs once, and no other; in the plan it was sent it visits the same positions. -/
theorem visit_spec : ∀ (p : Plan Row) (ctx : TaskCtx), CtxOk ctx p → LeavesOk ctx p →
    ∃ l, visit p ctx = .ok l ∧ visit (share ctx p) ctx = .ok l ∧ l.Nodup ∧ ∀ x, x ∈ l ↔ Runs ctx p x
  | .node k tc cs, ctx, hok, hlv => by
    rcases isCiu k with ⟨ws, m, rfl⟩ | hk
    · obtain ⟨es, hes, hd, hl⟩ := hok ctx ws m tc cs .root
      rw [share_node (by rintro _ _ ⟨⟩)]
      simp only [Kind.isNet, Bool.false_eq_true, if_false]
      have hent : ∀ es' : List Union.Entry, (∀ e ∈ es', e ∈ es) → (es'.map (·.1)).Nodup →
          ∃ l, visitEntries cs es' = .ok l ∧ visitEntries (shareAll (childCtx (Row := Row) (.ciu ws m) ctx) cs) es' = .ok l ∧ l.Nodup
            ∧ ∀ x, x ∈ l ↔ ∃ e ∈ es', ∃ c y, cs[e.1]? = some c ∧ x = e.1 :: y ∧ Runs e.2 c y := by
        intro es'
        induction es' with
        | nil => intro _ _; exact ⟨[], by simp [visitEntries], by simp [visitEntries], by simp, by simp⟩
        | cons e es' ih =>
          intro hsub hnd
          simp only [List.map_cons, List.nodup_cons, List.mem_map, not_exists, not_and] at hnd
          obtain ⟨l, h1, h2, h3, h4⟩ := ih (fun e he => hsub e (by simp [he])) hnd.2
          have he := hsub e (by simp)
          have hlt := hl e he
          have hget : cs[e.1]? = some cs[e.1] := List.getElem?_eq_getElem hlt
          have hmem : cs[e.1] ∈ cs := List.getElem_mem hlt
          have hcc := (childCtx_iff (Row := Row) (ws := ws) hes hd e.1 e.2).mpr he
          obtain ⟨l', g1, g2, g3, g4⟩ := visit_spec cs[e.1] e.2 (hok.child rfl hget hcc) (hlv.child hok rfl hget hcc)
          refine ⟨l'.map (e.1 :: ·) ++ l, ?_, ?_, ?_, ?_⟩
          · unfold visitEntries
            rw [visitNth_eq, hget]
            simp only
            rw [g1, h1]; rfl
          · unfold visitEntries
            rw [visitNth_eq, shareAll_get _ _ hget hcc]
            simp only
            rw [g2, h2]; rfl
          · rw [List.nodup_append]
            refine ⟨g3.map (fun a b h => by simpa using h), h3, ?_⟩
            rintro a ha b hb rfl
            obtain ⟨a', _, rfl⟩ := List.mem_map.mp ha
            obtain ⟨e', he', c, y, _, h, _⟩ := (h4 _).mp hb
            exact hnd.1 e' he' (List.cons.inj h).1.symm
          · intro x
            rw [List.mem_append, List.mem_map, h4]
            constructor
            · rintro (⟨y, hy, rfl⟩ | ⟨e', he', h⟩)
              · exact ⟨e, by simp, _, y, hget, rfl, (g4 y).mp hy⟩
              · exact ⟨e', by simp [he'], h⟩
            · rintro ⟨e', he', c, y, hc, rfl, hr⟩
              rcases List.mem_cons.mp he' with rfl | he'
              · rw [hget] at hc
                cases hc
                exact .inl ⟨y, (g4 y).mpr hr, rfl⟩
              · exact .inr ⟨e', he', c, y, hc, rfl, hr⟩
      obtain ⟨l, h1, h2, h3, h4⟩ := hent es (fun _ h => h) hd
      refine ⟨[] :: l, ?_, ?_, ?_, ?_⟩
      · unfold visit; simp only [hes]; rw [h1]; rfl
      · unfold visit; simp only [hes]; rw [h2]; rfl
      · rw [List.nodup_cons]
        refine ⟨fun h => ?_, h3⟩
        obtain ⟨_, _, _, _, _, h, _⟩ := (h4 _).mp h
        cases h
      · intro x
        rw [List.mem_cons, h4]
        constructor
        · rintro (rfl | ⟨e, he, c, y, hc, rfl, hr⟩)
          · exact .root
          · exact .branch hes he hc hr
        · intro h
          cases h with
          | root => exact .inl rfl
          | child _ hk => exact absurd rfl (hk _ _)
          | @branch _ _ _ _ _ es' i ctx₁ c y h5 h6 h7 h8 =>
            rw [hes] at h5
            cases h5
            exact .inr ⟨_, h6, c, y, h7, rfl, h8⟩
    · have hall : ∀ (l : List (Plan Row)) (j : Nat), (∀ c ∈ l, c ∈ cs ∧ CtxOk ctx c ∧ LeavesOk ctx c) →
          ∃ r, visitAll j l ctx = .ok r ∧ visitAll j (shareAll (fun _ => some ctx) l) ctx = .ok r ∧ r.Nodup
            ∧ ∀ x, x ∈ r ↔ ∃ i c y, l[i]? = some c ∧ x = (j + i) :: y ∧ Runs ctx c y := by
        intro l
        induction l with
        | nil => intro j _; exact ⟨[], by simp [visitAll], by simp [visitAll, shareAll], by simp, by simp⟩
        | cons c l ih =>
          intro j hl
          obtain ⟨r, h1, h2, h3, h4⟩ := ih (j + 1) (fun c hc => hl c (by simp [hc]))
          obtain ⟨hmem, ho, hv⟩ := hl c (by simp)
          obtain ⟨r', g1, g2, g3, g4⟩ := visit_spec c ctx ho hv
          refine ⟨r'.map (j :: ·) ++ r, ?_, ?_, ?_, ?_⟩
          · unfold visitAll
            rw [g1, h1]; rfl
          · unfold shareAll visitAll
            simp only
            rw [g2, h2]; rfl
          · rw [List.nodup_append]
            refine ⟨g3.map (fun a b h => by simpa using h), h3, ?_⟩
            rintro a ha b hb rfl
            obtain ⟨a', _, rfl⟩ := List.mem_map.mp ha
            obtain ⟨i, c, y, _, h, _⟩ := (h4 _).mp hb
            have := (List.cons.inj h).1
            omega
          · intro x
            rw [List.mem_append, List.mem_map, h4]
            constructor
            · rintro (⟨y, hy, rfl⟩ | ⟨i, c', y, h, rfl, hr⟩)
              · exact ⟨0, c, y, rfl, rfl, (g4 y).mp hy⟩
              · exact ⟨i + 1, c', y, by simpa using h, by congr 1; omega, hr⟩
            · rintro ⟨i, c', y, hc, rfl, hr⟩
              match i with
              | 0 => cases hc; exact .inl ⟨y, (g4 y).mpr hr, rfl⟩
              | i + 1 => exact .inr ⟨i, c', y, by simpa using hc, by congr 1; omega, hr⟩
      rcases isDistLeaf k with ⟨o, vs, rfl⟩ | hdl
      · obtain ⟨rfl, _⟩ := hlv ctx o vs tc cs .root
        refine ⟨[[]], by simp [visit, visitAll, Kind.isNet, bind, Except.bind],
          by simp [share, visit, visitAll, Kind.isNet, bind, Except.bind], by simp, fun x => ?_⟩
        simp only [List.mem_singleton]
        constructor
        · rintro rfl; exact .root
        · intro h
          cases h with
          | root => rfl
          | child _ _ hc => cases hc
      rw [share_node hdl, visit_other hk, visit_other hk]
      have hf : childCtx k ctx = fun _ => some ctx := funext fun i => childCtx_other hk ctx i
      cases hn : k.isNet with
      | true =>
        refine ⟨[[]], rfl, rfl, by simp, fun x => ?_⟩
        simp only [List.mem_singleton]
        constructor
        · rintro rfl; exact .root
        · intro h
          cases h with
          | root => rfl
          | child h => rw [hn] at h; cases h
          | branch => exact absurd rfl (hk _ _)
      | false =>
        simp only [Bool.false_eq_true, if_false, hf]
        obtain ⟨r, h1, h2, h3, h4⟩ := hall cs 0 (fun c hc => by
          obtain ⟨i, hi, rfl⟩ := List.getElem_of_mem hc
          have hcc := childCtx_other hk ctx i
          exact ⟨hc, hok.child hn (List.getElem?_eq_getElem hi) hcc,
            hlv.child hok hn (List.getElem?_eq_getElem hi) hcc⟩)
        refine ⟨[] :: r, by rw [h1]; rfl, by rw [h2]; rfl, ?_, ?_⟩
        · rw [List.nodup_cons]
          refine ⟨fun h => ?_, h3⟩
          obtain ⟨_, _, _, _, h, _⟩ := (h4 _).mp h
          cases h
        · intro x
          rw [List.mem_cons, h4]
          constructor
          · rintro (rfl | ⟨i, c, y, hc, rfl, hr⟩)
            · exact .root
            · rw [Nat.zero_add]; exact .child hn hk hc hr
          · intro h
            cases h with
            | root => exact .inl rfl
            | child _ _ hc hr => exact .inr ⟨_, _, _, hc, by rw [Nat.zero_add], hr⟩
            | branch => exact absurd rfl (hk _ _)
termination_by p => sizeOf p
decreasing_by all_goals (have := List.sizeOf_lt_of_mem ‹_ ∈ cs›; simp_wf; omega)

/-- The nodes of a stage, each once. -/
theorem nodes_spec : ∀ p : Plan Row, (nodes p).Nodup ∧ ∀ x, x ∈ nodes p ↔ ∃ y, NodeAt p x y
  | .node k tc cs => by
    have hall : ∀ (l : List (Plan Row)) (j : Nat), (∀ c ∈ l, c ∈ cs) → (nodesAll j l).Nodup
        ∧ ∀ x, x ∈ nodesAll j l ↔ ∃ i c z y, l[i]? = some c ∧ x = (j + i) :: z ∧ NodeAt c z y := by
      intro l
      induction l with
      | nil => intro j _; simp [nodesAll]
      | cons c l ih =>
        intro j hl
        obtain ⟨h3, h4⟩ := ih (j + 1) (fun c hc => hl c (by simp [hc]))
        have hmem := hl c (by simp)
        obtain ⟨g3, g4⟩ := nodes_spec c
        unfold nodesAll
        constructor
        · rw [List.nodup_append]
          refine ⟨g3.map (fun a b h => by simpa using h), h3, ?_⟩
          rintro a ha b hb rfl
          obtain ⟨a', _, rfl⟩ := List.mem_map.mp ha
          obtain ⟨i, c, z, y, _, h, _⟩ := (h4 _).mp hb
          have := (List.cons.inj h).1
          omega
        · intro x
          rw [List.mem_append, List.mem_map, h4]
          constructor
          · rintro (⟨z, hz, rfl⟩ | ⟨i, c', z, y, h, rfl, hr⟩)
            · obtain ⟨y, hy⟩ := (g4 z).mp hz
              exact ⟨0, c, z, y, rfl, rfl, hy⟩
            · exact ⟨i + 1, c', z, y, by simpa using h, by congr 1; omega, hr⟩
          · rintro ⟨i, c', z, y, hc, rfl, hr⟩
            match i with
            | 0 => cases hc; exact .inl ⟨z, (g4 z).mpr ⟨y, hr⟩, rfl⟩
            | i + 1 => exact .inr ⟨i, c', z, y, by simpa using hc, by congr 1; omega, hr⟩
    obtain ⟨h3, h4⟩ := hall cs 0 (fun _ h => h)
    unfold nodes
    cases hn : k.isNet with
    | true =>
      refine ⟨by simp, fun x => ?_⟩
      simp only [if_true, List.mem_singleton]
      constructor
      · rintro rfl; exact ⟨_, .root⟩
      · rintro ⟨y, h⟩
        cases h with
        | root => rfl
        | child h => rw [hn] at h; cases h
    | false =>
      simp only [Bool.false_eq_true, if_false]
      refine ⟨?_, fun x => ?_⟩
      · rw [List.nodup_cons]
        refine ⟨fun h => ?_, h3⟩
        obtain ⟨_, _, _, _, _, h, _⟩ := (h4 _).mp h
        cases h
      · rw [List.mem_cons, h4]
        constructor
        · rintro (rfl | ⟨i, c, z, y, hc, rfl, hr⟩)
          · exact ⟨_, .root⟩
          · exact ⟨y, by rw [Nat.zero_add]; exact .child hn hc hr⟩
        · rintro ⟨y, h⟩
          cases h with
          | root => exact .inl rfl
          | child _ hc hr => exact .inr ⟨_, _, _, _, hc, by rw [Nat.zero_add], hr⟩
termination_by p => sizeOf p
decreasing_by all_goals (have := List.sizeOf_lt_of_mem ‹_ ∈ cs›; simp_wf; omega)

theorem Runs.mem {ctx : TaskCtx} {p : Plan Row} {x : Path} (h : Runs ctx p x) : x ∈ nodes p := by
  rw [(nodes_spec p).2]
  induction h with
  | root => exact ⟨_, .root⟩
  | child h1 _ h3 _ ih =>
    obtain ⟨y, hy⟩ := ih
    exact ⟨y, .child h1 h3 hy⟩
  | branch _ _ h3 _ ih =>
    obtain ⟨y, hy⟩ := ih
    exact ⟨y, .child rfl h3 hy⟩

/-! ### The map of metrics -/

theorem rewrite_eq (f : Format) (i : Nat) (ms : List (Metric V)) : f.rewrite i ms = ms.map (shownFor f i) := by
  cases f
  · exact (List.map_id ms).symm
  · rfl

theorem enterTask_spec (f : Format) (addr : Path → Nat) (task : Nat) (recorded : Path → List (Metric V))
    (ms : List (List (Metric V))) : ∀ (xs : List Path) (n : Nat) (map : NodeMap V), xs.Nodup →
    (∀ (j : Nat) x, xs[j]? = some x → ms[n + j]? = some (recorded x)) →
    ∃ map', enterTask f addr task ms n xs map = .ok map'
      ∧ ∀ y, (∀ x ∈ xs, addr x = addr y → x = y) →
        map' (addr y) = map (addr y) ++ if y ∈ xs then (recorded y).map (shownFor f task) else []
  | [], n, map, _, _ => ⟨map, rfl, by simp⟩
  | x :: xs, n, map, hnd, hms => by
    rw [List.nodup_cons] at hnd
    have ih := enterTask_spec f addr task recorded ms xs (n + 1)
      (fun a => if a = addr x then map a ++ f.rewrite task (recorded x) else map a) hnd.2
      (fun j y hj => by rw [Nat.add_assoc, Nat.add_comm 1 j]; exact hms (j + 1) y (by simpa using hj))
    obtain ⟨map', h1, h2⟩ := ih
    have hget : ms[n]? = some (recorded x) := hms 0 x rfl
    refine ⟨map', ?_, ?_⟩
    · unfold enterTask
      rw [hget]
      exact h1
    · intro y hy
      rw [h2 y (fun z hz => hy z (by simp [hz]))]
      by_cases hxy : x = y
      · subst hxy
        simp [hnd.1, rewrite_eq]
      · have hne : addr y ≠ addr x := fun h => hxy (hy x (by simp) h.symm)
        have hyx : y ≠ x := fun h => hxy h.symm
        simp [hne, hyx]

theorem enterTasks_spec (f : Format) (addr : Path → Nat) (query num tasks : Nat) (store : Store V) (p : Plan Row)
    (recorded : Nat → Path → List (Metric V)) (vs : Nat → List Path) : ∀ (is : List Nat) (map : NodeMap V),
    (∀ i ∈ is, visit p ⟨i, tasks⟩ = .ok (vs i) ∧ (vs i).Nodup
      ∧ ∃ ms, store ⟨query, num, i⟩ = some ms ∧ ∀ (j : Nat) x, (vs i)[j]? = some x → ms[j]? = some (recorded i x)) →
    ∃ map', enterTasks f addr query num tasks store p is map = .ok map'
      ∧ ∀ y, (∀ i ∈ is, ∀ x ∈ vs i, addr x = addr y → x = y) →
        map' (addr y) = map (addr y) ++ is.flatMap fun i => if y ∈ vs i then (recorded i y).map (shownFor f i) else []
  | [], map, _ => ⟨map, rfl, by simp⟩
  | i :: is, map, h => by
    obtain ⟨h1, h2, ms, h3, h4⟩ := h i (by simp)
    obtain ⟨map1, g1, g2⟩ := enterTask_spec f addr i (recorded i) ms (vs i) 0 map h2 (by simpa using h4)
    obtain ⟨map2, k1, k2⟩ := enterTasks_spec f addr query num tasks store p recorded vs is map1
      (fun i hi => h i (by simp [hi]))
    refine ⟨map2, ?_, ?_⟩
    · unfold enterTasks
      simp only [h3]
      rw [h1]
      simp only [bind, Except.bind, g1]
      exact k1
    · intro y hy
      rw [k2 y (fun i hi => hy i (by simp [hi])), g2 y (hy i (by simp)), List.flatMap_cons, List.append_assoc]

theorem wrapNodes_spec (addr : Path → Nat) : ∀ (xs : List Path) (map : NodeMap V), xs.Nodup →
    (∀ x ∈ xs, ∀ y ∈ xs, addr x = addr y → x = y) → wrapNodes addr xs map = xs.map fun x => (x, map (addr x))
  | [], _, _, _ => rfl
  | x :: xs, map, hnd, hinj => by
    rw [List.nodup_cons] at hnd
    unfold wrapNodes
    rw [wrapNodes_spec addr xs _ hnd.2 (fun a ha b hb => hinj a (by simp [ha]) b (by simp [hb]))]
    simp only [List.map_cons, List.cons.injEq, true_and]
    apply List.map_congr_left
    intro y hy
    have : addr y ≠ addr x := fun h => by
      have := hinj y (by simp [hy]) x (by simp) h
      subst this
      exact hnd.1 hy
    simp [this]

theorem localRewrite_spec (f : Format) (task : Nat) (recorded : Path → List (Metric V)) : ∀ (xs done : List Path),
    localRewrite f task ((done ++ xs).map recorded) done.length xs
      = .ok (xs.map fun x => (x, (recorded x).map (shownFor f task)))
  | [], _ => rfl
  | x :: xs, done => by
    have ih := localRewrite_spec f task recorded xs (done ++ [x])
    have hget : ((done ++ x :: xs).map recorded)[done.length]? = some (recorded x) := by simp
    unfold localRewrite
    rw [hget]
    simp only
    rw [show done ++ x :: xs = done ++ [x] ++ xs by simp, show done.length + 1 = (done ++ [x]).length by simp, ih,
      rewrite_eq]
    rfl

/-- What a stage shows, from the positions its tasks visit. -/
theorem stageRewrite_spec (f : Format) (addr : Path → Nat) (query num tasks : Nat) (store : Store V) (p : Plan Row)
    (recorded : Nat → Path → List (Metric V)) (vs : Nat → List Path) (hd : Distinct addr p)
    (h : ∀ i < tasks, visit p ⟨i, tasks⟩ = .ok (vs i) ∧ (vs i).Nodup ∧ (∀ x ∈ vs i, x ∈ nodes p)
      ∧ ∃ ms, store ⟨query, num, i⟩ = some ms ∧ ∀ (j : Nat) x, (vs i)[j]? = some x → ms[j]? = some (recorded i x)) :
    stageRewrite f addr query num tasks store p = .ok ((nodes p).map fun x => (x, (List.range tasks).flatMap fun i =>
      if x ∈ vs i then (recorded i x).map (shownFor f i) else [])) := by
  obtain ⟨map, h1, h2⟩ := enterTasks_spec f addr query num tasks store p recorded vs (List.range tasks) (fun _ => [])
    (fun i hi => by
      obtain ⟨a, b, _, c⟩ := h i (List.mem_range.mp hi)
      exact ⟨a, b, c⟩)
  unfold stageRewrite
  rw [h1]
  show Except.ok _ = _
  rw [wrapNodes_spec addr (nodes p) map (nodes_spec p).1 (fun x hx y hy => hd x y hx hy)]
  congr 1
  apply List.map_congr_left
  intro x hx
  rw [h2 x (fun i hi y hy => hd y x ((h i (List.mem_range.mp hi)).2.2.1 y hy) hx)]
  rfl

/-! ### Boundaries -/

mutual
theorem mem_boundaries (x : Plan Row) : ∀ (p : Plan Row) (T : Nat), x ∈ boundaries p ↔ ∃ t, At T p t x ∧ x.kind.isNet = true
  | .node k tc cs, T => by
    unfold boundaries
    rw [List.mem_append, mem_boundariesAll x cs (childCount k T)]
    constructor
    · rintro (h | ⟨i, c, t, hc, h, hn⟩)
      · split at h
        · rename_i hk
          rw [List.mem_singleton] at h
          subst h
          exact ⟨T, .root, hk⟩
        · cases h
      · exact ⟨t, .child hc h, hn⟩
    · rintro ⟨t, h, hn⟩
      cases h with
      | root =>
        left
        rw [if_pos (show k.isNet = true from hn)]
        simp
      | child hc h => exact .inr ⟨_, _, t, hc, h, hn⟩
theorem mem_boundariesAll (x : Plan Row) : ∀ (cs : List (Plan Row)) (count : Nat → Nat), x ∈ boundariesAll cs ↔
    ∃ (i : Nat) (c : Plan Row) (t : Nat), cs[i]? = some c ∧ At (count i) c t x ∧ x.kind.isNet = true
  | [], _ => by simp [boundariesAll]
  | c :: cs, count => by
    unfold boundariesAll
    rw [List.mem_append, mem_boundaries x c (count 0), mem_boundariesAll x cs (fun i => count (i + 1))]
    constructor
    · rintro (⟨t, h, hn⟩ | ⟨i, c', t, hc, h, hn⟩)
      · exact ⟨0, c, t, rfl, h, hn⟩
      · exact ⟨i + 1, c', t, by simpa using hc, h, hn⟩
    · rintro ⟨i, c', t, hc, h, hn⟩
      match i with
      | 0 => cases hc; exact .inl ⟨t, h, hn⟩
      | i + 1 => exact .inr ⟨i, c', t, by simpa using hc, h, hn⟩
end

mutual
theorem boundaries_nums : ∀ p : Plan Row, ((boundaries p).map fun b => b.kind.num).Perm (stageNums p)
  | .node k tc cs => by
    unfold boundaries stageNums
    rw [List.map_append]
    refine (List.Perm.append_left _ (boundaries_numsAll cs)).trans ?_
    refine List.perm_append_comm.trans (List.Perm.append_left _ ?_)
    split <;> exact .refl _
theorem boundaries_numsAll : ∀ cs : List (Plan Row), ((boundariesAll cs).map fun b => b.kind.num).Perm (stageNumsAll cs)
  | [] => by simp [boundariesAll, stageNumsAll]
  | c :: cs => by
    unfold boundariesAll stageNumsAll
    rw [List.map_append]
    exact (boundaries_nums c).append (boundaries_numsAll cs)
end

end DD.Metrics
