/-
**C93**: filters that joins learn while they run.
-/
import Verif.Spec.Learned
import Verif.Lemmas.PlanRows
import Verif.Props.Join

namespace DD.Learned

open Tree InProcess

variable {Row Url : Type}

/-- The row matches something in `ls`. -/
def matched (s : JoinSpec Row) (ls : List Row) (r : Row) : Bool := ls.any (s.on · r)

theorem matched_of {s : JoinSpec Row} {ls : List Row} {l r : Row} (hl : l ∈ ls) (h : s.on l r = true) : matched s ls r = true :=
  List.any_eq_true.2 ⟨l, hl, h⟩

theorem filter_on {s : JoinSpec Row} {ls rs : List Row} {l : Row} (hl : l ∈ ls) :
    (rs.filter (matched s ls)).filter (s.on l) = rs.filter (s.on l) := by
  rw [List.filter_filter]
  apply List.filter_congr
  intro r _
  cases h : s.on l r
  · rfl
  · rw [matched_of hl h]; rfl

theorem any_on {s : JoinSpec Row} {ls rs : List Row} {l : Row} (hl : l ∈ ls) :
    (rs.filter (matched s ls)).any (s.on l) = rs.any (s.on l) := by
  rw [Bool.eq_iff_iff, List.any_eq_true, List.any_eq_true]
  constructor
  · rintro ⟨r, hr, h⟩; exact ⟨r, (List.mem_filter.1 hr).1, h⟩
  · rintro ⟨r, hr, h⟩; exact ⟨r, List.mem_filter.2 ⟨hr, matched_of hl h⟩, h⟩

theorem pairs_matched (s : JoinSpec Row) (ls rs : List Row) : pairs s ls (rs.filter (matched s ls)) = pairs s ls rs := by
  unfold pairs
  apply List.flatMap_congr
  intro l hl
  rw [filter_on hl]

/-- Rows of the probe side without a match do not show in the result. -/
theorem joinRows_matched (s : JoinSpec Row) (hn : s.nullAware = none) (hd : dropsUnmatched s.jt = true) (ls rs : List Row) :
    joinRows s ls (rs.filter (matched s ls)) = joinRows s ls rs := by
  simp only [joinRows, hn]
  cases hj : s.jt <;> simp only [hj, dropsUnmatched, Bool.false_eq_true] at hd ⊢
  · exact pairs_matched s ls rs
  · rw [pairs_matched]
    congr 1
    unfold padLeft
    congr 1
    apply List.filter_congr
    intro l hl
    rw [any_on hl]
  · apply List.filter_congr
    intro l hl
    rw [any_on hl]
  · show List.filter (matched s ls) _ = List.filter (matched s ls) rs
    rw [List.filter_filter]; simp
  · apply List.filter_congr
    intro l hl
    rw [any_on hl]
  · apply List.map_congr_left
    intro l hl
    rw [any_on hl]


variable [DecidableEq Url] {q : Query Row Url}

/-- The rows of scan task `i` among those that were let pass. -/
def gotOf (got : List (Nat × Row)) (i : Nat) : List Row := (got.filter fun x => x.1 = i).map (·.2)

theorem gotOf_snoc (got : List (Nat × Row)) (i j : Nat) (r : Row) :
    gotOf (got ++ [(i, r)]) j = if j = i then gotOf got j ++ [r] else gotOf got j := by
  unfold gotOf
  by_cases h : j = i
  · simp [List.filter_append, h]
  · simp [List.filter_append, h, Ne.symm h]

theorem gotOf_perm {n : Nat} {got : List (Nat × Row)} (h : ∀ x ∈ got, x.1 < n) :
    ((List.range n).flatMap (gotOf got)).Perm (got.map (·.2)) := by
  have := (buckets_perm (fun x : Nat × Row => x.1) n got h).map (·.2)
  rw [List.map_flatMap] at this
  exact this

/-- What every step keeps: the filters a scan can see let everything pass that matches, and of every scan exactly the rows it has
read were let pass, up to some without a match. -/
structure Inv (q : Query Row Url) (st : State Row) : Prop where
  filters : ∀ f p, st.filter p = some f → (p = .shared ∨ ∃ i, p = q.scanPlace i) →
    ∀ l ∈ q.build, ∀ r, q.spec.on l r = true → f r = true
  rows : ∀ i, (gotOf st.got i).filter (matched q.spec q.build) = ((q.probe i).take (st.read i)).filter (matched q.spec q.build)
  scans : ∀ x ∈ st.got, x.1 < q.scans

theorem place_scan {q : Query Row Url} {t i : Nat} (h : q.joinPlace t = q.scanPlace i) :
    q.joinPlace t = .shared ∨ q.buildOf t = q.build := by
  unfold Query.scanPlace at h
  unfold Query.buildOf
  cases hm : q.mode with
  | collect same reach => exact .inr rfl
  | partitioned parts =>
    left
    rw [hm] at h
    simp only at h
    unfold Query.joinPlace placeOf at h ⊢
    cases h1 : nodeOf q.self q.joinUrls t with
    | shared => rfl
    | own a =>
      rw [h1] at h
      cases h2 : nodeOf q.self q.scanUrls i with
      | shared => rw [h2] at h; cases h
      | own b => rw [h2] at h; cases h

theorem Inv.step {st : State Row} (h : Inv q st)
    (hw : ∀ t < q.tasks, q.joinPlace t = .shared → ∀ l ∈ q.build, l ∈ q.buildOf t)
    (s : Step Row) (hs : q.Legal s) : Inv q (st.step q s) := by
  cases s with
  | sent scan t =>
    refine ⟨?_, h.rows, h.scans⟩
    intro f p hf hp
    simp only [State.step] at hf
    split at hf
    · exact h.filters f .shared hf (.inl rfl)
    · exact h.filters f p hf hp
  | learn t g =>
    refine ⟨?_, h.rows, h.scans⟩
    intro f p hf hp l hl r hr
    simp only [State.step] at hf
    split at hf
    · rename_i hpt
      cases hf
      refine hs.2 l ?_ r hr
      rcases hp with hp | ⟨i, hp⟩
      · exact hw t hs.1 (hpt.symm.trans hp) l hl
      · rcases place_scan (hpt.symm.trans hp) with h1 | h1
        · exact hw t hs.1 h1 l hl
        · rw [h1]; exact hl
    · exact h.filters f p hf hp l hl r hr
  | read i apply =>
    simp only [State.step]
    cases hr : (q.probe i)[st.read i]? with
    | none => exact h
    | some r =>
      have htake : (q.probe i).take (st.read i + 1) = (q.probe i).take (st.read i) ++ [r] := by
        rw [List.take_add_one, hr]; rfl
      have hpass : ∀ st' : State Row, st'.filter = st.filter → st'.got = st.got ++ [(i, r)] →
          st'.read = (fun j => if j = i then st.read i + 1 else st.read j) → Inv q st' := by
        intro st' h1 h2 h3
        refine ⟨?_, ?_, ?_⟩
        · rw [h1]; exact h.filters
        · intro j
          rw [h2, h3, gotOf_snoc]
          show _ = List.filter _ (List.take (if j = i then _ else _) _)
          by_cases hj : j = i
          · rw [if_pos hj, if_pos hj, hj, htake, List.filter_append, List.filter_append, h.rows i]
          · rw [if_neg hj, if_neg hj, h.rows j]
        · rw [h2]
          intro x hx
          rcases List.mem_append.1 hx with hx | hx
          · exact h.scans x hx
          · rw [List.mem_singleton.1 hx]; exact hs
      cases apply with
      | false => exact hpass _ rfl rfl rfl
      | true =>
        cases hf : st.filter (q.scanPlace i) with
        | none => exact hpass _ rfl rfl rfl
        | some f =>
          by_cases hfr : f r = true
          · refine hpass _ rfl ?_ rfl
            simp only [hfr, if_true]
          · have hum : matched q.spec q.build r = false := by
              rw [Bool.eq_false_iff]
              intro hm
              obtain ⟨l, hl, hon⟩ := List.any_eq_true.1 hm
              exact hfr (h.filters f _ hf (.inr ⟨i, rfl⟩) l hl r hon)
            refine ⟨h.filters, ?_, ?_⟩
            · intro j
              simp only [hfr, Bool.false_eq_true, if_false]
              by_cases hj : j = i
              · rw [if_pos hj, hj, htake, List.filter_append, h.rows i]
                simp [hum]
              · rw [if_neg hj, h.rows j]
            · simp only [hfr, Bool.false_eq_true, if_false]
              exact h.scans

theorem Inv.start : Inv q {} where
  filters := by intro f p h; cases h
  rows := by intro i; rfl
  scans := by intro x hx; cases hx

theorem Inv.runFrom {st : State Row} (h : Inv q st)
    (hw : ∀ t < q.tasks, q.joinPlace t = .shared → ∀ l ∈ q.build, l ∈ q.buildOf t) :
    ∀ (steps : List (Step Row)), (∀ s ∈ steps, q.Legal s) → Inv q (runFrom q st steps)
  | [], _ => h
  | s :: steps, hl => (h.step hw s (hl s (by simp))).runFrom hw steps fun x hx => hl x (by simp [hx])

/-- What the tasks return together is the join of the build side with the rows that were let pass. -/
theorem result_perm (hok : q.Ok) (got : List (Nat × Row)) :
    (q.result got).Perm (joinRows q.spec q.build (got.map (·.2))) := by
  obtain ⟨hn, -, hm⟩ := hok
  unfold Query.result
  cases hmode : q.mode with
  | partitioned parts =>
    rw [hmode] at hm
    exact C10_collect_to_partitioned q.spec hm.1 hn _ hm.2 _ _
  | collect same reach =>
    rw [hmode] at hm
    have hsafe : q.spec.safe = true := by simp [JoinSpec.safe, hn, hm.1]
    have h1 := joinRows_probe_flatMap q.spec hsafe q.build (List.range q.tasks)
      (fun t => (got.filter fun x => reach x.1 x.2 == t).map (·.2))
    refine h1.symm.trans (joinRows_perm q.spec (by intro f hf; rw [hn] at hf; cases hf) (List.Perm.refl _) ?_)
    have h2 := (buckets_perm (fun x : Nat × Row => reach x.1 x.2) q.tasks got (fun x _ => hm.2 _ _)).map (·.2)
    rw [List.map_flatMap] at h2
    refine List.Perm.trans (List.Perm.of_eq ?_) h2
    apply flatMap_congr'
    intro t _
    congr 1

/-- **C93 (part).** Whatever the tasks of a join learn and whenever they publish it, and whichever rows the scans apply it to, the
query returns the rows of the single-node join, if every task of the join in the coordinator's own process has the whole build side. -/
theorem C93_learned_filters_partial (q : Query Row Url) (hok : q.Ok)
    (hw : ∀ t < q.tasks, q.joinPlace t = .shared → ∀ l ∈ q.build, l ∈ q.buildOf t)
    (steps : List (Step Row)) (hl : ∀ s ∈ steps, q.Legal s) (he : q.Ended steps) :
    (q.result (run q steps).got).Perm q.answer := by
  have inv : Inv q (run q steps) := Inv.start.runFrom hw steps hl
  have hu : q.spec.Unordered := by intro f hf; rw [hok.1] at hf; cases hf
  refine (result_perm hok _).trans ?_
  unfold Query.answer
  rw [← joinRows_matched q.spec hok.1 hok.2.1 q.build ((run q steps).got.map (·.2)),
    ← joinRows_matched q.spec hok.1 hok.2.1 q.build ((List.range q.scans).flatMap q.probe)]
  refine joinRows_perm q.spec hu (List.Perm.refl _) ?_
  refine ((gotOf_perm inv.scans).symm.filter _).trans (List.Perm.of_eq ?_)
  rw [List.filter_flatMap, List.filter_flatMap]
  apply flatMap_congr'
  intro i hi
  rw [inv.rows i, he.1 i (List.mem_range.1 hi), List.take_length]

/-- **C93 (part).** Joins whose build side is broadcast: on every placement of the tasks. -/
theorem C93_broadcast_joins (q : Query Row Url) (hok : q.Ok) {same reach} (hm : q.mode = .collect same reach)
    (steps : List (Step Row)) (hl : ∀ s ∈ steps, q.Legal s) (he : q.Ended steps) :
    (q.result (run q steps).got).Perm q.answer :=
  C93_learned_filters_partial q hok (fun t _ _ l h => by unfold Query.buildOf; rw [hm]; exact h) steps hl he

/-- **C93 (part).** Every join, as long as none of its tasks is at the coordinator's own URL; so in particular when the coordinator is
not a worker. -/
theorem C93_join_on_other_workers (q : Query Row Url) (hok : q.Ok) (hs : ∀ u, q.self = some u → u ∉ q.joinUrls)
    (steps : List (Step Row)) (hl : ∀ s ∈ steps, q.Legal s) (he : q.Ended steps) :
    (q.result (run q steps).got).Perm q.answer := by
  refine C93_learned_filters_partial q hok (fun t _ h => ?_) steps hl he
  exfalso
  unfold Query.joinPlace placeOf nodeOf at h
  cases hself : q.self with
  | none => rw [hself] at h; cases h
  | some u =>
    rw [hself] at h
    cases hu : q.joinUrls[t]? with
    | none => rw [hu] at h; cases h
    | some v =>
      rw [hu] at h
      by_cases huv : u = v
      · exact hs u hself (huv ▸ List.mem_of_getElem? hu)
      · simp only [if_neg huv] at h; cases h

/-- **C93 (part).** Every join that runs in one task, wherever it runs. -/
theorem C93_join_in_one_task (q : Query Row Url) (hok : q.Ok) (h1 : q.tasks = 1)
    (steps : List (Step Row)) (hl : ∀ s ∈ steps, q.Legal s) (he : q.Ended steps) :
    (q.result (run q steps).got).Perm q.answer := by
  refine C93_learned_filters_partial q hok (fun t ht _ l h => ?_) steps hl he
  have h0 : t = 0 := by omega
  subst h0
  unfold Query.buildOf
  have hm := hok.2.2
  cases hmode : q.mode with
  | collect same reach => exact h
  | partitioned parts =>
    rw [hmode] at hm
    have hp : 0 < parts := by have := hm.2; rw [h1] at this; omega
    refine List.mem_flatMap.2 ⟨q.spec.lk l % parts, List.mem_range.2 (Nat.mod_lt _ hp), ?_⟩
    simp [hashPart, h1, h]

/-! ### Several tasks, one of them in the coordinator's process -/

/-- Facts that hold while the scans read after task `t` has published: of every scan a part was let pass, and of a scan in the same
process only what matches in task `t`. -/
structure Cut (q : Query Row Url) (f : Row → Bool) (st : State Row) : Prop where
  filter : st.filter .shared = some f
  part : ∀ i, (gotOf st.got i).Sublist ((q.probe i).take (st.read i))
  only : ∀ x ∈ st.got, q.scanPlace x.1 = .shared → f x.2 = true
  scans : ∀ x ∈ st.got, x.1 < q.scans

theorem Cut.read {f : Row → Bool} {st : State Row} (h : Cut q f st) (i : Nat) (hi : i < q.scans) :
    Cut q f (st.step q (.read i true)) := by
  simp only [State.step]
  cases hr : (q.probe i)[st.read i]? with
  | none => exact h
  | some r =>
    have htake : (q.probe i).take (st.read i + 1) = (q.probe i).take (st.read i) ++ [r] := by
      rw [List.take_add_one, hr]; rfl
    have hpass : ∀ st' : State Row, st'.filter = st.filter → st'.got = st.got ++ [(i, r)] →
        st'.read = (fun j => if j = i then st.read i + 1 else st.read j) → (q.scanPlace i = .shared → f r = true) → Cut q f st' := by
      intro st' h1 h2 h3 h4
      refine ⟨by rw [h1]; exact h.filter, ?_, ?_, ?_⟩
      · intro j
        rw [h2, h3, gotOf_snoc]
        show List.Sublist _ (List.take (if j = i then _ else _) _)
        by_cases hj : j = i
        · rw [if_pos hj, if_pos hj, hj, htake]
          exact (h.part i).append (List.Sublist.refl _)
        · rw [if_neg hj, if_neg hj]; exact h.part j
      · rw [h2]
        intro x hx
        rcases List.mem_append.1 hx with hx | hx
        · exact h.only x hx
        · rw [List.mem_singleton.1 hx]; exact h4
      · rw [h2]
        intro x hx
        rcases List.mem_append.1 hx with hx | hx
        · exact h.scans x hx
        · rw [List.mem_singleton.1 hx]; exact hi
    cases hf : st.filter (q.scanPlace i) with
    | none =>
      refine hpass _ rfl rfl rfl ?_
      intro hsh
      rw [hsh, h.filter] at hf
      cases hf
    | some g =>
      by_cases hg : g r = true
      · refine hpass _ rfl ?_ rfl ?_
        · simp only [hg, if_true]
        · intro hsh
          rw [hsh, h.filter] at hf
          cases hf
          exact hg
      · refine ⟨h.filter, ?_, ?_, ?_⟩
        · intro j
          simp only [hg, Bool.false_eq_true, if_false]
          by_cases hj : j = i
          · rw [if_pos hj, hj, htake]
            exact (h.part i).trans (List.sublist_append_left _ _)
          · rw [if_neg hj]; exact h.part j
        · simp only [hg, Bool.false_eq_true, if_false]; exact h.only
        · simp only [hg, Bool.false_eq_true, if_false]; exact h.scans

theorem read_step (st : State Row) (i : Nat) (j : Nat) :
    (st.step q (.read i true)).read j = if j = i then min (st.read i + 1) (max (st.read i) (q.probe i).length) else st.read j := by
  simp only [State.step]
  cases hr : (q.probe i)[st.read i]? with
  | none =>
    have := List.getElem?_eq_none_iff.1 hr
    by_cases hj : j = i
    · rw [if_pos hj, hj]; show st.read i = _; omega
    · rw [if_neg hj]
  | some r =>
    have := (List.getElem?_eq_some_iff.1 hr).1
    show (if j = i then _ else _) = _
    by_cases hj : j = i
    · rw [if_pos hj, if_pos hj]; omega
    · rw [if_neg hj, if_neg hj]

/-- A scan reads `n` rows. -/
theorem Cut.readN {f : Row → Bool} (i : Nat) (hi : i < q.scans) : ∀ (n : Nat) {st : State Row}, Cut q f st →
    st.read i + n ≤ (q.probe i).length →
    Cut q f (runFrom q st (List.replicate n (.read i true)))
      ∧ ∀ j, (runFrom q st (List.replicate n (.read i true))).read j = if j = i then st.read i + n else st.read j
  | 0, st, h, _ => ⟨h, fun j => by by_cases hj : j = i <;> simp [runFrom, hj]⟩
  | n + 1, st, h, hn => by
    have hstep : (st.step q (.read i true)).read i = st.read i + 1 := by
      rw [read_step, if_pos rfl]; omega
    obtain ⟨h1, h2⟩ := Cut.readN i hi n (h.read i hi) (by rw [hstep]; omega)
    refine ⟨h1, fun j => ?_⟩
    have := h2 j
    rw [List.replicate_succ]
    show (runFrom q (st.step q (.read i true)) _).read j = _
    rw [this, hstep]
    by_cases hj : j = i
    · rw [if_pos hj, if_pos hj]; omega
    · rw [if_neg hj, if_neg hj, read_step, if_neg hj]

/-- All scans read all their rows. -/
def readAll (q : Query Row Url) (n : Nat) : List (Step Row) :=
  (List.range n).flatMap fun i => List.replicate (q.probe i).length (.read i true)

theorem runFrom_append (st : State Row) (a b : List (Step Row)) : runFrom q st (a ++ b) = runFrom q (runFrom q st a) b :=
  List.foldl_append

theorem Cut.readAll {f : Row → Bool} : ∀ (n : Nat) (_ : n ≤ q.scans) {st : State Row}, Cut q f st → (∀ i, st.read i = 0) →
    Cut q f (runFrom q st (readAll q n))
      ∧ ∀ j, (runFrom q st (Learned.readAll q n)).read j = if j < n then (q.probe j).length else 0
  | 0, _, st, h, h0 => ⟨h, fun j => by simp [Learned.readAll, runFrom, h0]⟩
  | n + 1, hn, st, h, h0 => by
    obtain ⟨h1, h2⟩ := Cut.readAll n (by omega) h h0
    have hr : (runFrom q st (Learned.readAll q n)).read n = 0 := by rw [h2, if_neg (by omega)]
    obtain ⟨h3, h4⟩ := Cut.readN n (by omega) (q.probe n).length h1 (by rw [hr]; omega)
    have he : Learned.readAll q (n + 1) = Learned.readAll q n ++ List.replicate (q.probe n).length (.read n true) := by
      simp [Learned.readAll, List.range_succ]
    rw [he, runFrom_append]
    refine ⟨h3, fun j => ?_⟩
    rw [h4, hr, h2]
    by_cases hj : j = n
    · rw [if_pos hj, if_pos (by omega), hj]; omega
    · rw [if_neg hj]
      by_cases hjn : j < n
      · rw [if_pos hjn, if_pos (by omega)]
      · rw [if_neg hjn, if_neg (by omega)]

theorem runFrom_learn (st : State Row) : ∀ (steps : List (Step Row)), (∀ s ∈ steps, ∃ t f, s = .learn t f) →
    (runFrom q st steps).got = st.got ∧ (runFrom q st steps).read = st.read
  | [], _ => ⟨rfl, rfl⟩
  | s :: steps, h => by
    obtain ⟨t, f, rfl⟩ := h s (by simp)
    exact runFrom_learn (st.step q (.learn t f)) steps fun x hx => h x (by simp [hx])

theorem sum_le {ι} {a b : ι → Nat} : ∀ (L : List ι), (∀ j ∈ L, a j ≤ b j) → (L.map a).sum ≤ (L.map b).sum
  | [], _ => Nat.le_refl _
  | j :: L, h => by
    have h1 := h j (by simp)
    have h2 := sum_le L fun x hx => h x (by simp [hx])
    simp only [List.map_cons, List.sum_cons]; omega

theorem sum_lt {ι} {a b : ι → Nat} : ∀ (L : List ι) (i : ι), i ∈ L → (∀ j ∈ L, a j ≤ b j) → a i < b i →
    (L.map a).sum < (L.map b).sum
  | j :: L, i, hi, h, hlt => by
    have h1 := h j (by simp)
    have h2 : ∀ x ∈ L, a x ≤ b x := fun x hx => h x (by simp [hx])
    simp only [List.map_cons, List.sum_cons]
    rcases List.mem_cons.1 hi with rfl | hi
    · have := sum_le L h2; omega
    · have := sum_lt L i hi h2 hlt; omega

theorem pairs_length (s : JoinSpec Row) (ls rs : List Row) : (pairs s ls rs).length = (ls.map fun l => (rs.filter (s.on l)).length).sum := by
  simp [pairs, List.length_flatMap]

theorem filter_flatMap_length {ι} (L : List ι) (g : ι → List Row) (p : Row → Bool) :
    ((L.flatMap g).filter p).length = (L.map fun i => ((g i).filter p).length).sum := by
  rw [List.filter_flatMap, List.length_flatMap]

/-- **C93 is false** for partitioned joins in several tasks with a coordinator that is a worker too. Whenever one of the tasks of the
join and one of the scan of its probe side run at the coordinator's own URL, and that scan has a row whose match is in another task
only, there is a history in which nothing fails, every scan reads all its rows, every task publishes a filter of its own build side, and
the query returns fewer rows than it should. -/
theorem C93_local_join_and_scan_false (q : Query Row Url) (hok : q.Ok) {parts : Nat} (hm : q.mode = .partitioned parts)
    (hin : q.spec.jt = .inner) {u : Url} (hself : q.self = some u) {t i : Nat} (ht : t < q.tasks) (hi : i < q.scans)
    (hut : q.joinUrls[t]? = some u) (hui : q.scanUrls[i]? = some u) {l r : Row} (hr : r ∈ q.probe i) (hl : l ∈ q.build)
    (hon : q.spec.on l r = true) (hother : ∀ l' ∈ q.buildOf t, q.spec.on l' r = false) :
    ∃ steps, (∀ s ∈ steps, q.Legal s) ∧ q.Ended steps ∧ (q.result (run q steps).got).length < q.answer.length := by
  let f : Nat → Row → Bool := fun t => matched q.spec (q.buildOf t)
  have hlearn : ∀ t < q.tasks, q.Legal (.learn t (f t)) := fun t h => ⟨h, fun l hl r hr => matched_of hl hr⟩
  have hjp : q.joinPlace t = .shared := by simp [Query.joinPlace, placeOf, nodeOf, hself, hut]
  have hsp : q.scanPlace i = .shared := by simp [Query.scanPlace, hm, placeOf, nodeOf, hself, hui]
  let after : List (Step Row) := ((List.range q.tasks).filter fun t' => t' ≠ t).map fun t' => .learn t' (f t')
  have hcut : Cut q (f t) (({} : State Row).step q (.learn t (f t))) := by
    refine ⟨?_, ?_, ?_, ?_⟩
    · simp [State.step, hjp]
    · intro j; exact List.nil_sublist _
    · intro x hx; cases hx
    · intro x hx; cases hx
  obtain ⟨c1, c2⟩ := Cut.readAll q.scans (Nat.le_refl _) hcut (fun _ => rfl)
  have hrun : run q (.learn t (f t) :: (readAll q q.scans ++ after))
      = runFrom q (runFrom q (({} : State Row).step q (.learn t (f t))) (readAll q q.scans)) after := by
    show runFrom q (({} : State Row).step q (.learn t (f t))) (readAll q q.scans ++ after) = _
    rw [runFrom_append]
  obtain ⟨a1, a2⟩ := runFrom_learn (q := q)
    (runFrom q (({} : State Row).step q (.learn t (f t))) (readAll q q.scans)) after (by
      intro s hs
      obtain ⟨t', -, rfl⟩ := List.mem_map.1 hs
      exact ⟨_, _, rfl⟩)
  refine ⟨.learn t (f t) :: (readAll q q.scans ++ after), ?_, ⟨?_, ?_⟩, ?_⟩
  · intro s hs
    rcases List.mem_cons.1 hs with rfl | hs
    · exact hlearn t ht
    rcases List.mem_append.1 hs with hs | hs
    · obtain ⟨j, hj, hs⟩ := List.mem_flatMap.1 hs
      rw [List.eq_of_mem_replicate hs]
      exact List.mem_range.1 hj
    · obtain ⟨t', ht', rfl⟩ := List.mem_map.1 hs
      exact hlearn t' (List.mem_range.1 (List.mem_filter.1 ht').1)
  · intro j hj
    rw [hrun, a2, c2, if_pos hj]
  · intro t' ht'
    by_cases h : t' = t
    · exact ⟨f t, by rw [h]; simp⟩
    · refine ⟨f t', ?_⟩
      refine List.mem_cons_of_mem _ (List.mem_append_right _ (List.mem_map.2 ⟨t', ?_, rfl⟩))
      exact List.mem_filter.2 ⟨List.mem_range.2 ht', by simpa using h⟩
  · rw [hrun, a1, (result_perm hok _).length_eq]
    obtain ⟨st, hst⟩ : ∃ st, st = runFrom q (({} : State Row).step q (.learn t (f t))) (readAll q q.scans) := ⟨_, rfl⟩
    rw [← hst] at c1 c2 ⊢
    have hj : ∀ ls rs, joinRows q.spec ls rs = pairs q.spec ls rs := by
      intro ls rs; simp [joinRows, hok.1, hin]
    unfold Query.answer
    rw [hj, hj, (pairs_perm q.spec (List.Perm.refl _) (gotOf_perm c1.scans).symm).length_eq, pairs_length, pairs_length]
    have hsub : ∀ j < q.scans, (gotOf st.got j).Sublist (q.probe j) := fun j hj => by
      have := c1.part j
      rwa [c2, if_pos hj, List.take_length] at this
    refine sum_lt q.build l hl ?_ ?_
    · intro l' _
      rw [filter_flatMap_length, filter_flatMap_length]
      exact sum_le _ fun j hj => ((hsub j (List.mem_range.1 hj)).filter _).length_le
    · rw [filter_flatMap_length, filter_flatMap_length]
      refine sum_lt _ i (List.mem_range.2 hi) (fun j hj => ((hsub j (List.mem_range.1 hj)).filter _).length_le) ?_
      have hs := (hsub i hi).filter (q.spec.on l)
      refine Nat.lt_of_le_of_ne hs.length_le fun heq => ?_
      have hmem : r ∈ (gotOf st.got i).filter (q.spec.on l) := by
        rw [hs.eq_of_length heq]; exact List.mem_filter.2 ⟨hr, hon⟩
      obtain ⟨x, hx, hxr⟩ := List.mem_map.1 (List.mem_filter.1 hmem).1
      have hx' := List.mem_filter.1 hx
      have hxi : x.1 = i := by simpa using hx'.2
      have hf := c1.only x hx'.1 (by rw [hxi]; exact hsp)
      rw [hxr] at hf
      obtain ⟨l', hl', hon'⟩ := List.any_eq_true.1 hf
      rw [hother l' hl'] at hon'
      cases hon'

/-! ### Cases -/

/-- Rows match if their first components, the keys, are equal. Two tasks of one partition each: even keys are joined in task 0, odd
ones in task 1. Task 0 and the first scan are in the coordinator's process if `self` is its URL, `0`. -/
def Demo.query (self : Option Nat) (mode : Mode (Nat × Nat)) : Query (Nat × Nat) Nat where
  spec := Tree.Demo.onFirst .inner
  mode := mode
  tasks := 2
  scans := 2
  self := self
  joinUrls := [0, 1]
  scanUrls := [0, 1]
  build := [(2, 0), (3, 0)]
  probe := fun i => if i = 0 then [(2, 10), (3, 11)] else [(3, 12)]

theorem Demo.equi : (Tree.Demo.onFirst .inner).Equi := by
  intro l r h
  simpa [Tree.Demo.onFirst] using h

theorem Demo.partitioned_ok (self : Option Nat) : (Demo.query self (.partitioned 1)).Ok :=
  ⟨rfl, rfl, Demo.equi, Nat.zero_lt_two⟩

/-- Non-vacuity: the query of the false case, and what it returns: two of the three rows. -/
example : ∃ steps, (∀ s ∈ steps, (Demo.query (some 0) (.partitioned 1)).Legal s) ∧ (Demo.query (some 0) (.partitioned 1)).Ended steps
    ∧ ((Demo.query (some 0) (.partitioned 1)).result (run (Demo.query (some 0) (.partitioned 1)) steps).got).length
      < (Demo.query (some 0) (.partitioned 1)).answer.length :=
  C93_local_join_and_scan_false (Demo.query (some 0) (.partitioned 1)) (Demo.partitioned_ok _) rfl rfl (u := 0) rfl (t := 0) (i := 0)
    Nat.zero_lt_two Nat.zero_lt_two rfl rfl (l := (3, 0)) (r := (3, 11)) (by simp [Demo.query]) (by simp [Demo.query])
    (by decide +kernel) (by decide +kernel)

/-- A history with filters of both tasks, published before and between the reads. -/
def Demo.steps : List (Step (Nat × Nat)) :=
  [.sent true 1, .learn 0 (fun r => r.1 == 2), .read 0 true, .learn 1 (fun r => r.1 == 3), .read 1 true, .read 0 true]

/-- With the coordinator as a worker, this history of the partitioned join loses a row, without it, it does not; and where a filter
was applied, a row without a match is gone before it is sent. -/
example :
    ((Demo.query (some 0) (.partitioned 1)).result (run (Demo.query (some 0) (.partitioned 1)) Demo.steps).got).length = 2
    ∧ ((Demo.query none (.partitioned 1)).result (run (Demo.query none (.partitioned 1)) Demo.steps).got).length = 3
    ∧ (Demo.query none (.partitioned 1)).answer.length = 3 := by decide +kernel

/-- Non-vacuity of the positive theorems: the history above, with the coordinator not a worker. -/
example : ((Demo.query none (.partitioned 1)).result (run (Demo.query none (.partitioned 1)) Demo.steps).got).Perm
    (Demo.query none (.partitioned 1)).answer := by
  refine C93_join_on_other_workers _ (Demo.partitioned_ok _) (by intro u h; cases h) _ ?_ ⟨?_, ?_⟩
  · intro s hs
    simp only [Demo.steps, List.mem_cons, List.not_mem_nil, or_false] at hs
    rcases hs with rfl | rfl | rfl | rfl | rfl | rfl
    · trivial
    · refine ⟨Nat.zero_lt_two, ?_⟩
      intro l hl r hr
      have : l = (2, 0) := by
        have hb : (Demo.query none (.partitioned 1)).buildOf 0 = [(2, 0)] := by decide +kernel
        rw [hb] at hl; simpa using hl
      subst this
      simp only [Demo.query, Tree.Demo.onFirst, beq_iff_eq] at hr ⊢
      exact hr.symm
    · exact Nat.zero_lt_two
    · refine ⟨Nat.one_lt_two, ?_⟩
      intro l hl r hr
      have : l = (3, 0) := by
        have hb : (Demo.query none (.partitioned 1)).buildOf 1 = [(3, 0)] := by decide +kernel
        rw [hb] at hl; simpa using hl
      subst this
      simp only [Demo.query, Tree.Demo.onFirst, beq_iff_eq] at hr ⊢
      exact hr.symm
    · exact Nat.one_lt_two
    · exact Nat.zero_lt_two
  · decide +kernel
  · intro t ht
    have : t = 0 ∨ t = 1 := by have : t < 2 := ht; omega
    rcases this with rfl | rfl
    · exact ⟨_, by unfold Demo.steps; exact List.mem_cons_of_mem _ List.mem_cons_self⟩
    · exact ⟨_, by unfold Demo.steps; exact List.mem_cons_of_mem _ (List.mem_cons_of_mem _ (List.mem_cons_of_mem _ List.mem_cons_self))⟩

/-- Non-vacuity: a broadcast join in the coordinator's process, with a filter that drops a row. -/
example : ({ Demo.query (some 0) (.collect true fun i _ => i % 2) with probe := fun i => if i = 0 then [(2, 10), (5, 11)] else [] }
      : Query (Nat × Nat) Nat).Ok
    ∧ (run ({ Demo.query (some 0) (.collect true fun i _ => i % 2) with probe := fun i => if i = 0 then [(2, 10), (5, 11)] else [] }
      : Query (Nat × Nat) Nat) [.learn 0 (fun r => r.1 == 2 || r.1 == 3), .read 0 true, .read 0 true]).got = [(0, (2, 10))] := by
  refine ⟨⟨rfl, rfl, rfl, ?_⟩, by decide +kernel⟩
  intro i r
  exact Nat.mod_lt _ Nat.zero_lt_two

end DD.Learned
