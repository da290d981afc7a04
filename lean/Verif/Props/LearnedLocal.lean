/-
**C93**, for joins of tables that are partitioned alike on disk.
-/
import Verif.Spec.LearnedLocal
import Verif.Props.Learned

namespace DD.Learned

open Tree InProcess

variable {Row Url : Type}

theorem located {T : Nat} {h : Row → Nat} {x : Nat → List Row} (hx : ∀ t < T, ∀ r ∈ x t, h r % T = t) {t : Nat} (ht : t < T) :
    hashPart h T t ((List.range T).flatMap x) = x t := by
  have := hashPart_all (h := h) (T := T) (P := 1) (x := fun i _ => x i)
    (fun i hi q hq y hy => by simpa [show q = 0 by omega] using hx i hi y hy) ht Nat.zero_lt_one
  simpa using this

theorem Local.answer_perm (q : Local Row Url) (hn : q.spec.nullAware = none) (he : q.spec.Equi)
    (hb : ∀ t < q.tasks, ∀ r ∈ q.build t, q.spec.lk r % q.tasks = t) (hp : ∀ t < q.tasks, ∀ r ∈ q.probe t, q.spec.rk r % q.tasks = t)
    (h0 : 0 < q.tasks) :
    ((List.range q.tasks).flatMap fun t => joinRows q.spec (q.build t) (q.probe t)).Perm q.answer := by
  refine (List.Perm.of_eq ?_).trans (joinRows_buckets q.spec he hn q.tasks h0 _ _).symm
  apply flatMap_congr'
  intro t ht
  have ht := List.mem_range.1 ht
  rw [located hb ht, located hp ht]

variable [DecidableEq Url] {q : Local Row Url}

theorem Local.scanPlace_eq (q : Local Row Url) (i : Nat) : q.scans.scanPlace i = q.scans.joinPlace i := rfl

theorem joinPlace_cases (q : Query Row Url) (t : Nat) : q.joinPlace t = .shared ∨ q.joinPlace t = .own false t := by
  unfold Query.joinPlace placeOf nodeOf
  cases q.self with
  | none => exact .inr rfl
  | some s =>
    cases q.joinUrls[t]? with
    | none => exact .inr rfl
    | some u => by_cases h : s = u <;> simp [h]

/-- What every step keeps: the filter a task sees lets everything pass that matches in it, that of the coordinator what matches in any. -/
structure LocalInv (q : Local Row Url) (st : State Row) : Prop where
  own : ∀ t < q.tasks, ∀ f, st.filter (q.scans.joinPlace t) = some f → ∀ l ∈ q.build t, ∀ r, q.spec.on l r = true → f r = true
  shared : ∀ f, st.filter .shared = some f → ∀ t < q.tasks, ∀ l ∈ q.build t, ∀ r, q.spec.on l r = true → f r = true
  rows : ∀ t < q.tasks, (gotOf st.got t).filter (matched q.spec (q.build t))
    = ((q.probe t).take (st.read t)).filter (matched q.spec (q.build t))

theorem LocalInv.step {st : State Row} (h : LocalInv q st)
    (hw : ∀ t < q.tasks, q.scans.joinPlace t = .shared → ∀ t' < q.tasks, ∀ l ∈ q.build t', l ∈ q.build t)
    (s : Step Row) (hs : q.Legal s) : LocalInv q (st.step q.scans s) := by
  cases s with
  | sent scan t =>
    refine ⟨?_, ?_, h.rows⟩
    · intro t' ht' f hf
      simp only [State.step] at hf
      split at hf
      · exact h.shared f hf t' ht'
      · exact h.own t' ht' f hf
    · intro f hf
      simp only [State.step] at hf
      split at hf
      · exact h.shared f hf
      · exact h.shared f hf
  | learn t g =>
    refine ⟨?_, ?_, h.rows⟩
    · intro t' ht' f hf l hl r hr
      simp only [State.step] at hf
      split at hf
      · rename_i hpt
        cases hf
        refine hs.2 l ?_ r hr
        rcases joinPlace_cases q.scans t with h1 | h1
        · exact hw t hs.1 h1 t' ht' l hl
        · rcases joinPlace_cases q.scans t' with h2 | h2
          · rw [h1, h2] at hpt; cases hpt
          · rw [h1, h2] at hpt
            cases hpt
            exact hl
      · exact h.own t' ht' f hf l hl r hr
    · intro f hf t' ht' l hl r hr
      simp only [State.step] at hf
      split at hf
      · rename_i hpt
        cases hf
        exact hs.2 l (hw t hs.1 hpt.symm t' ht' l hl) r hr
      · exact h.shared f hf t' ht' l hl r hr
  | read i apply =>
    simp only [State.step]
    cases hr : (q.scans.probe i)[st.read i]? with
    | none => exact h
    | some r =>
      have htake : (q.probe i).take (st.read i + 1) = (q.probe i).take (st.read i) ++ [r] := by
        rw [List.take_add_one]
        show _ ++ ((q.scans.probe i)[st.read i]?).toList = _
        rw [hr]; rfl
      have hpass : ∀ st' : State Row, st'.filter = st.filter → st'.got = st.got ++ [(i, r)] →
          st'.read = (fun j => if j = i then st.read i + 1 else st.read j) → LocalInv q st' := by
        intro st' h1 h2 h3
        refine ⟨by rw [h1]; exact h.own, by rw [h1]; exact h.shared, ?_⟩
        intro j hj'
        rw [h2, h3, gotOf_snoc]
        show _ = List.filter _ (List.take (if j = i then _ else _) _)
        by_cases hj : j = i
        · subst hj
          rw [if_pos rfl, if_pos rfl, htake, List.filter_append, List.filter_append, h.rows j hj']
        · rw [if_neg hj, if_neg hj, h.rows j hj']
      cases apply with
      | false => exact hpass _ rfl rfl rfl
      | true =>
        cases hf : st.filter (q.scans.scanPlace i) with
        | none => exact hpass _ rfl rfl rfl
        | some f =>
          by_cases hfr : f r = true
          · refine hpass _ rfl ?_ rfl
            simp only [hfr, if_true]
          · have hum : matched q.spec (q.build i) r = false := by
              rw [Bool.eq_false_iff]
              intro hm
              obtain ⟨l, hl, hon⟩ := List.any_eq_true.1 hm
              exact hfr (h.own i hs f hf l hl r hon)
            refine ⟨h.own, h.shared, ?_⟩
            intro j hj'
            simp only [hfr, Bool.false_eq_true, if_false]
            by_cases hj : j = i
            · subst hj
              rw [if_pos rfl, htake, List.filter_append, h.rows j hj']
              simp [hum]
            · rw [if_neg hj, h.rows j hj']

theorem LocalInv.runFrom {st : State Row} (h : LocalInv q st)
    (hw : ∀ t < q.tasks, q.scans.joinPlace t = .shared → ∀ t' < q.tasks, ∀ l ∈ q.build t', l ∈ q.build t) :
    ∀ (steps : List (Step Row)), (∀ s ∈ steps, q.Legal s) → LocalInv q (runFrom q.scans st steps)
  | [], _ => h
  | s :: steps, hl => (h.step hw s (hl s (by simp))).runFrom hw steps fun x hx => hl x (by simp [hx])

/-- **C93 (part).** Joins of tables that are partitioned alike return the single-node answer, whatever their tasks learn and whenever
they publish and apply it, if tasks in the coordinator's own process have the whole build side. -/
theorem C93_partitioned_alike_partial (q : Local Row Url) (hok : q.Ok) (h0 : 0 < q.tasks)
    (hw : ∀ t < q.tasks, q.scans.joinPlace t = .shared → ∀ t' < q.tasks, ∀ l ∈ q.build t', l ∈ q.build t)
    (steps : List (Step Row)) (hl : ∀ s ∈ steps, q.Legal s) (he : q.Ended steps) :
    (q.result (run q.scans steps).got).Perm q.answer := by
  have start : LocalInv q {} := ⟨(by intro t _ f hf; cases hf), (by intro f hf; cases hf), (by intro t _; rfl)⟩
  have inv : LocalInv q (run q.scans steps) := start.runFrom hw steps hl
  refine (List.Perm.of_eq ?_).trans (q.answer_perm hok.1 hok.2.2.1 hok.2.2.2.1 hok.2.2.2.2 h0)
  unfold Local.result
  apply flatMap_congr'
  intro t ht
  have ht := List.mem_range.1 ht
  have hr := inv.rows t ht
  rw [he.2.1 t ht, List.take_length] at hr
  rw [← joinRows_matched q.spec hok.1 hok.2.1 (q.build t) (q.probe t), ← hr, joinRows_matched q.spec hok.1 hok.2.1]
  rfl

/-- **C93 (part).** So whenever no task of the join is at the coordinator's own URL. -/
theorem C93_partitioned_alike_on_other_workers (q : Local Row Url) (hok : q.Ok) (h0 : 0 < q.tasks)
    (hs : ∀ u, q.self = some u → u ∉ q.urls)
    (steps : List (Step Row)) (hl : ∀ s ∈ steps, q.Legal s) (he : q.Ended steps) :
    (q.result (run q.scans steps).got).Perm q.answer := by
  refine C93_partitioned_alike_partial q hok h0 (fun t _ h => ?_) steps hl he
  exfalso
  unfold Query.joinPlace placeOf nodeOf at h
  cases hself : q.self with
  | none => simp [Local.scans, hself] at h
  | some u =>
    cases hu : q.urls[t]? with
    | none => simp [Local.scans, hself, hu] at h
    | some v =>
      by_cases huv : u = v
      · exact hs u hself (huv ▸ List.mem_of_getElem? hu)
      · simp [Local.scans, hself, hu, huv] at h

/-! ### One of several tasks in the coordinator's process -/

/-- Task `i` only lets pass what `f` does. -/
def Only (q : Query Row Url) (f : Row → Bool) (i : Nat) (st : State Row) : Prop :=
  st.filter (q.scanPlace i) = some f ∧ ∀ x ∈ st.got, x.1 = i → f x.2 = true

theorem Only.read {q : Query Row Url} {f : Row → Bool} {i : Nat} {st : State Row} (h : Only q f i st) (j : Nat) :
    Only q f i (st.step q (.read j true)) := by
  simp only [State.step]
  cases hr : (q.probe j)[st.read j]? with
  | none => exact h
  | some r =>
    refine ⟨h.1, ?_⟩
    intro x hx hxi
    have hold : x ∈ st.got → f x.2 = true := fun hx => h.2 x hx hxi
    cases hf : st.filter (q.scanPlace j) with
    | none =>
      simp only [hf] at hx
      rcases List.mem_append.1 hx with hx | hx
      · exact hold hx
      · rw [List.mem_singleton.1 hx] at hxi
        simp only at hxi
        rw [hxi, h.1] at hf
        cases hf
    | some g =>
      simp only [hf] at hx
      by_cases hg : g r = true
      · rw [if_pos hg] at hx
        rcases List.mem_append.1 hx with hx | hx
        · exact hold hx
        · rw [List.mem_singleton.1 hx] at hxi ⊢
          simp only at hxi
          rw [hxi, h.1] at hf
          cases hf
          exact hg
      · rw [if_neg hg] at hx
        exact hold hx

theorem Only.reads {q : Query Row Url} {f : Row → Bool} {i : Nat} : ∀ (steps : List (Step Row)) {st : State Row}, Only q f i st →
    (∀ s ∈ steps, ∃ j, s = .read j true) → Only q f i (runFrom q st steps)
  | [], _, h, _ => h
  | s :: steps, st, h, hs => by
    obtain ⟨j, rfl⟩ := hs s (by simp)
    exact Only.reads steps (h.read j) fun x hx => hs x (by simp [hx])

/-- Sending plans gives the filter the coordinator has to those they are sent to. -/
theorem sent_all (q : Query Row Url) : ∀ (ts : List Nat) (st : State Row),
    (runFrom q st (ts.map fun t => .sent false t)).got = st.got
      ∧ (runFrom q st (ts.map fun t => .sent false t)).read = st.read
      ∧ (runFrom q st (ts.map fun t => .sent false t)).filter .shared = st.filter .shared
      ∧ ∀ i, (i ∈ ts ∨ st.filter (.own false i) = st.filter .shared) →
        (runFrom q st (ts.map fun t => .sent false t)).filter (.own false i) = st.filter .shared
  | [], st => ⟨rfl, rfl, rfl, fun i h => by rcases h with h | h; cases h; exact h⟩
  | t :: ts, st => by
    obtain ⟨h1, h2, h3, h4⟩ := sent_all q ts (st.step q (.sent false t))
    have hsh : (st.step q (.sent false t)).filter .shared = st.filter .shared := by simp [State.step]
    refine ⟨h1, h2, h3.trans hsh, fun i hi => ?_⟩
    refine (h4 i ?_).trans hsh
    by_cases hit : i = t
    · right
      subst hit
      simp [State.step]
    · rcases hi with hi | hi
      · rcases List.mem_cons.1 hi with hi | hi
        · exact absurd hi hit
        · exact .inl hi
      · right
        simp only [State.step]
        simpa [hit] using hi

/-- **C93 is false** for joins of tables that are partitioned alike, too: whenever one of several tasks is at the coordinator's own URL
and another task, anywhere, has a row with a match, there is a history in which nothing fails, every plan is sent before its task
starts, every task reads all its rows and publishes a filter of its own build side, and the query returns fewer rows than it should. -/
theorem C93_partitioned_alike_false (q : Local Row Url) (hok : q.Ok) (hin : q.spec.jt = .inner) {u : Url} (hself : q.self = some u)
    {t i : Nat} (ht : t < q.tasks) (hi : i < q.tasks) (hti : t ≠ i) (hut : q.urls[t]? = some u)
    {l r : Row} (hl : l ∈ q.build i) (hr : r ∈ q.probe i) (hon : q.spec.on l r = true) :
    ∃ steps, (∀ s ∈ steps, q.Legal s) ∧ q.Ended steps ∧ (q.result (run q.scans steps).got).length < q.answer.length := by
  let f : Nat → Row → Bool := fun t => matched q.spec (q.build t)
  have hlearn : ∀ t < q.tasks, q.Legal (.learn t (f t)) := fun t h => ⟨h, fun l hl r hr => matched_of hl hr⟩
  have hjp : q.scans.joinPlace t = .shared := by simp [Query.joinPlace, placeOf, nodeOf, Local.scans, hself, hut]
  let others : List (Step Row) := ((List.range q.tasks).filter fun t' => t' ≠ t).map fun t' => .learn t' (f t')
  let sents : List (Step Row) := (List.range q.tasks).map fun t' => .sent false t'
  let reads : List (Step Row) := readAll q.scans q.tasks
  have hreads : ∀ s ∈ reads, ∃ j, j < q.tasks ∧ s = .read j true := by
    intro s hs
    obtain ⟨j, hj, hs⟩ := List.mem_flatMap.1 hs
    exact ⟨j, List.mem_range.1 hj, List.eq_of_mem_replicate hs⟩
  obtain ⟨st1, hst1⟩ : ∃ st, st = ({} : State Row).step q.scans (.learn t (f t)) := ⟨_, rfl⟩
  obtain ⟨st2, hst2⟩ : ∃ st, st = runFrom q.scans st1 sents := ⟨_, rfl⟩
  obtain ⟨st3, hst3⟩ : ∃ st, st = runFrom q.scans st2 reads := ⟨_, rfl⟩
  have hs1 : st1.filter .shared = some (f t) := by rw [hst1]; simp [State.step, hjp]
  obtain ⟨s1, s2, s3, s4⟩ := sent_all q.scans (List.range q.tasks) st1
  have s1' : st2.got = [] := by rw [hst2]; exact s1.trans (by rw [hst1]; rfl)
  have s2' : ∀ j, st2.read j = 0 := by intro j; rw [hst2]; exact (congrFun s2 j).trans (by rw [hst1]; rfl)
  have hcut : Cut q.scans (f t) st2 := by
    refine ⟨by rw [hst2]; exact s3.trans hs1, ?_, ?_, ?_⟩
    · intro j; rw [s1']; exact List.nil_sublist _
    · intro x hx; rw [s1'] at hx; cases hx
    · intro x hx; rw [s1'] at hx; cases hx
  obtain ⟨c1, c2⟩ := Cut.readAll q.tasks (Nat.le_refl _) hcut s2'
  have honly : Only q.scans (f t) i st3 := by
    rw [hst3]
    refine Only.reads reads ⟨?_, by intro x hx; rw [s1'] at hx; cases hx⟩ fun s hs => (hreads s hs).imp fun j h => h.2
    rw [q.scanPlace_eq]
    rcases joinPlace_cases q.scans i with h | h
    · rw [h]; exact hcut.filter
    · rw [h, hst2]
      exact (s4 i (.inl (List.mem_range.2 hi))).trans hs1
  have hrun : run q.scans (.learn t (f t) :: (sents ++ (reads ++ others))) = runFrom q.scans st3 others := by
    show runFrom q.scans (({} : State Row).step q.scans (.learn t (f t))) (sents ++ (reads ++ others)) = _
    rw [← hst1, runFrom_append, runFrom_append, ← hst2, ← hst3]
  obtain ⟨a1, a2⟩ := runFrom_learn (q := q.scans) st3 others (by
    intro s hs
    obtain ⟨t', -, rfl⟩ := List.mem_map.1 hs
    exact ⟨_, _, rfl⟩)
  refine ⟨.learn t (f t) :: (sents ++ (reads ++ others)), ?_, ⟨?_, ?_, ?_⟩, ?_⟩
  · intro s hs
    rcases List.mem_cons.1 hs with rfl | hs
    · exact hlearn t ht
    rcases List.mem_append.1 hs with hs | hs
    · obtain ⟨t', -, rfl⟩ := List.mem_map.1 hs
      trivial
    rcases List.mem_append.1 hs with hs | hs
    · obtain ⟨j, hj, rfl⟩ := hreads s hs
      exact hj
    · obtain ⟨t', ht', rfl⟩ := List.mem_map.1 hs
      exact hlearn t' (List.mem_range.1 (List.mem_filter.1 ht').1)
  · intro t' ht' hne
    have htt : t ≠ t' := fun h => hne (h ▸ hjp)
    have hsplit : List.range q.tasks = List.range t' ++ t' :: (List.range (q.tasks - t' - 1)).map (fun j => t' + 1 + j) := by
      rw [show q.tasks = t' + (1 + (q.tasks - t' - 1)) by omega, List.range_add, List.range_add]
      simp [Nat.add_assoc]
    refine ⟨.learn t (f t) :: (List.range t').map fun j => .sent false j,
      ((List.range (q.tasks - t' - 1)).map (fun j => t' + 1 + j)).map (fun j => .sent false j) ++ (reads ++ others), ?_, ?_, ?_⟩
    · show _ :: ((List.range q.tasks).map (fun j => Step.sent false j) ++ _) = _
      rw [hsplit]
      simp
    · intro s hs
      rcases List.mem_cons.1 hs with rfl | hs
      · exact htt
      · obtain ⟨j, hj, rfl⟩ := List.mem_map.1 hs
        have := List.mem_range.1 hj
        show j ≠ t'
        omega
    · intro s hs
      rcases List.mem_append.1 hs with hs | hs
      · obtain ⟨j, hj, rfl⟩ := List.mem_map.1 hs
        obtain ⟨j', -, rfl⟩ := List.mem_map.1 hj
        intro h
        simp only [Step.sent.injEq, true_and] at h
        omega
      rcases List.mem_append.1 hs with hs | hs
      · obtain ⟨j, -, rfl⟩ := hreads s hs
        intro h; cases h
      · obtain ⟨j, -, rfl⟩ := List.mem_map.1 hs
        intro h; cases h
  · intro j hj
    rw [hrun, a2, hst3, c2, if_pos hj]
    rfl
  · intro t' ht'
    by_cases h : t' = t
    · exact ⟨f t, by rw [h]; simp⟩
    · refine ⟨f t', List.mem_cons_of_mem _ (List.mem_append_right _ (List.mem_append_right _ (List.mem_map.2 ⟨t', ?_, rfl⟩)))⟩
      exact List.mem_filter.2 ⟨List.mem_range.2 ht', by simpa using h⟩
  · rw [hrun, a1, ← (q.answer_perm hok.1 hok.2.2.1 hok.2.2.2.1 hok.2.2.2.2 (by omega)).length_eq]
    have hj : ∀ ls rs, joinRows q.spec ls rs = pairs q.spec ls rs := by
      intro ls rs; simp [joinRows, hok.1, hin]
    have hsub : ∀ j < q.tasks, (gotOf st3.got j).Sublist (q.probe j) := fun j hj => by
      have := c1.part j
      rw [c2, if_pos hj, List.take_length] at this
      rw [hst3]
      exact this
    unfold Local.result
    rw [List.length_flatMap, List.length_flatMap]
    simp only [hj, pairs_length]
    refine sum_lt _ i (List.mem_range.2 hi) ?_ ?_
    · intro j hj'
      exact sum_le _ fun l' _ => ((hsub j (List.mem_range.1 hj')).filter _).length_le
    · refine sum_lt _ l hl (fun l' _ => ((hsub i hi).filter _).length_le) ?_
      have hs := (hsub i hi).filter (q.spec.on l)
      refine Nat.lt_of_le_of_ne hs.length_le fun heq => ?_
      have hmem : r ∈ (gotOf st3.got i).filter (q.spec.on l) := by
        rw [hs.eq_of_length heq]; exact List.mem_filter.2 ⟨hr, hon⟩
      obtain ⟨x, hx, hxr⟩ := List.mem_map.1 (List.mem_filter.1 hmem).1
      have hx' := List.mem_filter.1 hx
      have hf := honly.2 x hx'.1 (by simpa using hx'.2)
      rw [hxr] at hf
      obtain ⟨l', hl', hon'⟩ := List.any_eq_true.1 hf
      have e1 := hok.2.2.1 l' r hon'
      have e2 := hok.2.2.2.1 t ht l' hl'
      have e3 := hok.2.2.2.2 i hi r hr
      rw [e1, e3] at e2
      exact hti e2.symm

/-! ### Cases -/

/-- Two tasks: even keys are with task 0, odd ones with task 1. Task 0 is in the coordinator's process if `self` is its URL, `0`. -/
def Demo.alike (self : Option Nat) : Local (Nat × Nat) Nat where
  spec := Tree.Demo.onFirst .inner
  tasks := 2
  self := self
  urls := [0, 1]
  build := fun t => if t = 0 then [(2, 0)] else [(3, 0)]
  probe := fun t => if t = 0 then [(2, 10), (4, 13)] else [(3, 11), (3, 12)]

theorem Demo.alike_ok (self : Option Nat) : (Demo.alike self).Ok := by
  refine ⟨rfl, rfl, Demo.equi, ?_, ?_⟩
  · intro t ht r hr
    have : t = 0 ∨ t = 1 := by have : (Demo.alike self).tasks = 2 := rfl; omega
    rcases this with rfl | rfl <;> simp [Demo.alike] at hr <;> subst hr <;> simp [Demo.alike, Tree.Demo.onFirst]
  · intro t ht r hr
    have : t = 0 ∨ t = 1 := by have : (Demo.alike self).tasks = 2 := rfl; omega
    rcases this with rfl | rfl <;> simp [Demo.alike] at hr <;> rcases hr with rfl | rfl <;> simp [Demo.alike, Tree.Demo.onFirst]

/-- Non-vacuity: the coordinator runs task 0; task 1 runs elsewhere. -/
example : ∃ steps, (∀ s ∈ steps, (Demo.alike (some 0)).Legal s) ∧ (Demo.alike (some 0)).Ended steps
    ∧ ((Demo.alike (some 0)).result (run (Demo.alike (some 0)).scans steps).got).length < (Demo.alike (some 0)).answer.length :=
  C93_partitioned_alike_false (Demo.alike (some 0)) (Demo.alike_ok _) rfl (u := 0) rfl (t := 0) (i := 1) Nat.zero_lt_two
    Nat.one_lt_two (by decide) rfl (l := (3, 0)) (r := (3, 11)) (by simp [Demo.alike]) (by simp [Demo.alike]) (by decide +kernel)

/-- A history in which task 1 is sent its plan after task 0 has published its filter. -/
def Demo.late : List (Step (Nat × Nat)) :=
  [.sent false 0, .learn 0 (fun r => r.1 == 2), .sent false 1, .read 0 true, .read 0 true, .read 1 true,
    .learn 1 (fun r => r.1 == 3), .read 1 true]

/-- With the coordinator as a worker it loses a row; otherwise it does not. -/
example : ((Demo.alike (some 0)).result (run (Demo.alike (some 0)).scans Demo.late).got).length = 2
    ∧ ((Demo.alike none).result (run (Demo.alike none).scans Demo.late).got).length = 3
    ∧ (Demo.alike none).answer.length = 3 := by decide +kernel

/-- Non-vacuity of the positive theorems: that history, with the coordinator not a worker. -/
example : ((Demo.alike none).result (run (Demo.alike none).scans Demo.late).got).Perm (Demo.alike none).answer := by
  refine C93_partitioned_alike_on_other_workers _ (Demo.alike_ok _) Nat.zero_lt_two (by intro u h; cases h) _ ?_ ⟨?_, ?_, ?_⟩
  · intro s hs
    simp only [Demo.late, List.mem_cons, List.not_mem_nil, or_false] at hs
    rcases hs with rfl | rfl | rfl | rfl | rfl | rfl | rfl | rfl
    · trivial
    · refine ⟨Nat.zero_lt_two, fun l hl r hr => ?_⟩
      simp [Demo.alike] at hl
      subst hl
      have h2 : 2 = r.1 := by simpa [Demo.alike, Tree.Demo.onFirst] using hr
      simp [← h2]
    · trivial
    · exact Nat.zero_lt_two
    · exact Nat.zero_lt_two
    · exact Nat.one_lt_two
    · refine ⟨Nat.one_lt_two, fun l hl r hr => ?_⟩
      simp [Demo.alike] at hl
      subst hl
      have h2 : 3 = r.1 := by simpa [Demo.alike, Tree.Demo.onFirst] using hr
      simp [← h2]
    · exact Nat.one_lt_two
  · intro t ht _
    have : t = 0 ∨ t = 1 := by have : (Demo.alike none).tasks = 2 := rfl; omega
    rcases this with rfl | rfl
    · exact ⟨[], _, rfl, by simp, by simp⟩
    · exact ⟨[.sent false 0, .learn 0 (fun r => r.1 == 2)], _, rfl, by simp [Step.task], by simp⟩
  · intro t ht
    have : t = 0 ∨ t = 1 := by have : (Demo.alike none).tasks = 2 := rfl; omega
    rcases this with rfl | rfl <;> decide +kernel
  · intro t ht
    have : t = 0 ∨ t = 1 := by have : (Demo.alike none).tasks = 2 := rfl; omega
    rcases this with rfl | rfl
    · exact ⟨fun r => r.1 == 2, by simp [Demo.late]⟩
    · exact ⟨fun r => r.1 == 3, by simp [Demo.late]⟩

end DD.Learned
