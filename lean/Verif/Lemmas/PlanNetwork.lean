/-
The network of a legal plan is a tree, and every task of every stage is asked for something.
-/
import Verif.Model.PlanNetwork
import Verif.Lemmas.FeedPlan
import Verif.Props.Routing

namespace DD.Net

open DD.Tree DD.Tree.Rec

variable {Row : Type}

/-- `t` tasks that run boundary `k` ask every task of its input stage for something. -/
def Asks (t : Nat) (k : Kind Row) : Prop :=
  ∀ j < k.tasks, ∃ i < t, ∃ q < k.netParts, ∃ pulls, requests k ⟨i, t⟩ q = .ok pulls ∧ ∃ r ∈ pulls, r.task = j

/-- What the network needs of one node run by `t` tasks. -/
def NodeOk (t : Nat) (x : Plan Row) : Prop :=
  (∀ ws m, x.kind = .ciu ws m → m.length = t ∧ Union.OncePerTask m ∧ ∃ k, Union.RunsAll x.children.length k m)
  ∧ (x.kind.isNet = true → Asks t x.kind)

/-- … and of all nodes of a plan run by `T` tasks. -/
def Wired (T : Nat) (p : Plan Row) : Prop := ∀ t x, At T p t x → NodeOk t x

theorem Wired.child {T : Nat} {k : Kind Row} {tc cs} (h : Wired T (.node k tc cs)) {i : Nat} {c : Plan Row} (hc : cs[i]? = some c) :
    Wired (childCount k T i) c := fun t x hx => h t x (.child hc hx)

/-! ### Legal plans are wired -/

theorem ciuParts_pos {n : Nat} {k : Nat → Nat} {m : Union.TaskMap} (hr : Union.RunsAll n k m) (hn : 0 < n) {Ps : List Nat}
    (hl : n = Ps.length) (hpos : ∀ P ∈ Ps, 0 < P) : 0 < ciuParts m Ps := by
  have hmem : ((0, ⟨0, k 0⟩) : Nat × TaskCtx) ∈ m.flatten :=
    hr.2.mem_iff.mpr (Union.mem_childTasks.mpr ⟨hn, hr.1 0 hn, rfl⟩)
  obtain ⟨es, hes, he⟩ := List.mem_flatten.mp hmem
  have hle : ∀ (l : List Nat) (a : Nat), a ≤ l.foldl max a ∧ ∀ x ∈ l, x ≤ l.foldl max a := by
    intro l
    induction l with
    | nil => intro a; simp
    | cons y l ih =>
      intro a
      obtain ⟨h1, h2⟩ := ih (max a y)
      rw [List.foldl_cons]
      refine ⟨by omega, fun x hx => ?_⟩
      rcases List.mem_cons.mp hx with rfl | hx
      · omega
      · exact h2 x hx
  have h1 : (es.map fun e => Ps.getD e.1 0).sum ≤ ciuParts m Ps := (hle _ 0).2 _ (List.mem_map.mpr ⟨es, hes, rfl⟩)
  have h2 : Ps.getD 0 0 ≤ (es.map fun e => Ps.getD e.1 0).sum :=
    List.le_sum_of_mem (List.mem_map.mpr ⟨_, he, rfl⟩)
  have h3 : 0 < Ps.getD 0 0 := by
    cases Ps with
    | nil => simp at hl; omega
    | cons P Ps => exact hpos P (by simp)
  omega

theorem legal_parts_pos {ph : Bool} {T : Nat} {p : Plan Row} {I : Info Row} (h : Legal ph T p I) : 0 < I.parts := by
  induction h with
  | leaf h => exact List.length_pos_iff.mpr h
  | distLeaf h => exact h
  | opLocal _ _ _ _ ih => exact ih
  | @opKeyed tc g red cs T P hs Es d' E' _ _ _ hne h1 h2 _ ih =>
    have h0 := List.length_pos_iff.mpr hne
    exact ih 0 _ _ _ (List.getElem?_eq_getElem h0) (List.getElem?_eq_getElem (h1 ▸ h0)) (List.getElem?_eq_getElem (h2 ▸ h0))
  | opSingle => exact Nat.one_pos
  | joinSafe _ _ _ _ _ _ ih => exact ih
  | joinSingle _ _ _ _ _ ih => exact ih
  | joinPart _ _ _ _ _ ih _ => exact ih
  | @union tc cs T E Ps hne hl _ ih =>
    have h0 := List.length_pos_iff.mpr hne
    have := ih 0 _ _ (List.getElem?_eq_getElem h0) (List.getElem?_eq_getElem (hl ▸ h0))
    exact Nat.lt_of_lt_of_le this (List.le_sum_of_mem (List.getElem_mem _))
  | @ciu tc ws m cs T E k Ps hne hl hm hr ho _ ih =>
    refine ciuParts_pos hr (List.length_pos_iff.mpr hne) hl fun P hP => ?_
    obtain ⟨i, hi, rfl⟩ := List.getElem_of_mem hP
    exact ih i _ _ (List.getElem?_eq_getElem (hl ▸ hi)) (List.getElem?_eq_getElem hi)
  | hashRepart h => exact h
  | otherRepart h => exact h
  | coalesce => exact Nat.one_pos
  | spm => exact Nat.one_pos
  | fetch => exact Nat.one_pos
  | broadcast _ ih => exact ih
  | shuffle h => exact h
  | netCoalesce hN hp _ _ _ ih => rw [hp]; exact Nat.mul_pos ih (by omega)
  | netBroadcast _ _ _ ih => exact ih
  | forget _ ih => exact ih
  | trivial _ ih => exact ih
  | repFlip _ ih => exact ih
  | coarsen _ _ ih => exact ih

theorem asks_fan {t P N : Nat} (ht : 0 < t) (hP : 0 < P) : ∀ j < N, ∃ i < t, ∃ q < P, ∃ pulls,
    (Except.ok ((FanExec.mk P N).execute ⟨i, t⟩ q) : Except Err (List Pull)) = .ok pulls ∧ ∃ r ∈ pulls, r.task = j := by
  intro j hj
  refine ⟨0, ht, 0, hP, _, rfl, ⟨j, P * 0 + 0, P * 0, P * 0 + P⟩, ?_, rfl⟩
  unfold FanExec.execute
  exact List.mem_map.mpr ⟨j, List.mem_range.mpr hj, rfl⟩

theorem asks_coalesce {t P N : Nat} (ht : 0 < t) (hP : 0 < P) : ∀ j < N, ∃ i < t, ∃ q < P * max (divCeil N t) 1, ∃ pulls,
    (CoalesceExec.mk (P * max (divCeil N t) 1) N).execute ⟨i, t⟩ q = .ok pulls ∧ ∃ r ∈ pulls, r.task = j := by
  intro j hj
  obtain ⟨i, q, ⟨hi, hq, hr⟩, _⟩ := C01_coalesce_unique_reader P N t ht ⟨P * max (divCeil N t) 1, N⟩
    (by simp [CoalesceExec.tryNew, Nat.ne_of_gt ht]) j 0 hj hP
  refine ⟨i, hi, q, hq, ?_⟩
  unfold readsOf at hr
  split at hr
  · rename_i pulls he
    obtain ⟨r, hr, e⟩ := List.mem_map.mp hr
    exact ⟨pulls, he, r, hr, (Prod.mk.inj e).1⟩
  · cases hr

theorem legal_wired {ph : Bool} {T : Nat} {p : Plan Row} {I : Info Row} (h : Legal ph T p I) : 0 < T → Wired T p := by
  have zip : ∀ {α : Type} {cs : List (Plan Row)} {as : List α} (_ : cs.length = as.length) {i : Nat} {c},
      cs[i]? = some c → ∃ a, as[i]? = some a := by
    intro α cs as hl i c hc
    have := (List.getElem?_eq_some_iff.mp hc).1
    exact ⟨as[i]'(hl ▸ this), List.getElem?_eq_getElem _⟩
  have one : ∀ {c : Plan Row} {P : Plan Row → Prop}, P c → ∀ (i : Nat) c', [c][i]? = some c' → P c' := by
    intro c P h i c' hc
    cases i with
    | zero => cases hc; exact h
    | succ i => cases hc
  have two : ∀ {b c : Plan Row} {P : Plan Row → Prop}, P b → P c → ∀ (i : Nat) c', [b, c][i]? = some c' → P c' := by
    intro b c P h h' i c' hc
    match i with
    | 0 => cases hc; exact h
    | 1 => cases hc; exact h'
    | i + 2 => cases hc
  have plain : ∀ {T : Nat} {k : Kind Row} {tc : TaskCount} {cs : List (Plan Row)}, k.isNet = false →
      (∀ ws m, k ≠ .ciu ws m) → (∀ (i : Nat) c, cs[i]? = some c → Wired T c) → Wired T (.node k tc cs) := by
    intro T k tc cs hn hk hcs t x hat
    cases hat with
    | root => exact ⟨fun ws m e => absurd e (hk ws m), fun h => by rw [show (Plan.node k tc cs).kind = k from rfl, hn] at h; cases h⟩
    | child hc hat =>
      rw [childCount_same hn hk] at hat
      exact hcs _ _ hc t x hat
  have headed : ∀ {N : Nat} {c : Plan Row}, (c.kind.isHead = true → c.children.length = 1) → Wired N (strip c) → Wired N c := by
    intro N c hh hw
    rcases strip_cases c with e | ⟨hk, y, rest, e, e'⟩
    · rwa [e] at hw
    · rw [e'] at hw
      have hl := hh hk
      have hc : c = .node c.kind c.tc c.children := by cases c; rfl
      rw [hc, e]
      have hrest : rest = [] := by rw [e] at hl; simpa using hl
      subst hrest
      refine plain (isHead_isNet hk) ?_ (one hw)
      intro ws m hkk
      rw [hkk] at hk
      cases hk
  have net : ∀ {T : Nat} {k : Kind Row} {tc : TaskCount} {c : Plan Row}, k.isNet = true → Asks T k →
      (c.kind.isHead = true → c.children.length = 1) → Wired k.tasks (strip c) → Wired T (.node k tc [c]) := by
    intro T k tc c hn ha hh hw t x hat
    cases hat with
    | root => 
      refine ⟨fun ws m e => ?_, fun _ => ha⟩
      rw [show (Plan.node k tc [c]).kind = k from rfl] at e
      rw [e] at hn
      cases hn
    | @child _ _ _ _ i c' _ _ hc hat =>
      have hcc : childCount k T i = k.tasks := by cases k <;> first | rfl | cases hn
      rw [hcc] at hat
      cases i with
      | zero => cases hc; exact headed hh hw t x hat
      | succ i => cases hc
  induction h with
  | leaf _ => exact fun _ => plain rfl (by rintro _ _ ⟨⟩) (fun i c hc => by cases hc)
  | distLeaf => exact fun _ => plain rfl (by rintro _ _ ⟨⟩) (fun i c hc => by cases hc)
  | opKeyed _ _ _ _ h1 h2 _ ih =>
    refine fun hT => plain rfl (by rintro _ _ ⟨⟩) fun i c hc => ?_
    obtain ⟨a, ha⟩ := zip h1 hc
    obtain ⟨b, hb⟩ := zip h2 hc
    exact ih i c a b hc ha hb hT
  | opSingle _ _ _ h1 _ ih =>
    refine fun hT => plain rfl (by rintro _ _ ⟨⟩) fun i c hc => ?_
    obtain ⟨a, ha⟩ := zip h1 hc
    exact ih i c a hc ha hT
  | union _ h1 _ ih =>
    refine fun hT => plain rfl (by rintro _ _ ⟨⟩) fun i c hc => ?_
    obtain ⟨a, ha⟩ := zip h1 hc
    exact ih i c a hc ha hT
  | joinSafe _ _ _ _ _ ih1 ih2 | joinSingle _ _ _ _ ih1 ih2 | joinPart _ _ _ _ _ ih1 ih2 =>
    exact fun hT => plain rfl (by rintro _ _ ⟨⟩) (two (ih1 hT) (ih2 hT))
  | opLocal _ _ _ _ ih | hashRepart _ _ _ ih | otherRepart _ _ _ ih | coalesce _ ih | spm _ ih | broadcast _ ih =>
    exact fun hT => plain rfl (by rintro _ _ ⟨⟩) (one (ih hT))
  | fetch hk _ _ ih =>
    exact fun hT => plain (by rcases hk with rfl | ⟨le, rfl⟩ <;> rfl)
      (by rcases hk with rfl | ⟨le, rfl⟩ <;> rintro _ _ ⟨⟩) (one (ih hT))
  | @ciu tc ws m cs T E k Ps _ hl hm hr ho _ ih =>
    intro hT t x hat
    cases hat with
    | root =>
      refine ⟨fun ws' m' e => ?_, fun h => by cases h⟩
      cases e
      exact ⟨hm, ho, k, hr⟩
    | @child _ _ _ _ i c _ _ hc hat =>
      obtain ⟨P, hP⟩ := zip hl hc
      have hi := (List.getElem?_eq_some_iff.mp hc).1
      have : childCount (Row := Row) (.ciu ws m) T i = k i := unionCount_eq hr hi
      rw [this] at hat
      exact ih i c P hc hP (hr.1 i hi) t x hat
  | @shuffle tc h p N num c T P E hp hN hph hpos hc ih =>
    exact fun hT => net (k := .shuffle h p N num) rfl (asks_fan hT hp) hpos.2 (ih hN)
  | @netCoalesce tc p N num c T P E hN hp hh hnet hc ih =>
    intro hT
    refine net (k := .netCoalesce p N num) rfl ?_ (by rw [hh]; intro h; cases h) (ih hN)
    subst hp
    exact asks_coalesce hT (legal_parts_pos hc)
  | @netBroadcast tc p N num c T E hN hb hc ih =>
    intro hT
    obtain ⟨n, tc', y, rfl, _⟩ := hb
    exact net (k := .netBroadcast p N num) rfl (asks_fan hT (legal_parts_pos hc)) (fun _ => rfl) (ih hN)
  | forget _ ih => exact ih
  | trivial _ ih => exact ih
  | repFlip _ ih => exact ih
  | coarsen _ _ ih => exact ih

/-! ### The network of a wired plan -/

/-- Every one of `T` contexts is run by some task. -/
def Covers (T : Nat) (runs : List (Nat × TaskCtx)) : Prop := ∀ i < T, ∃ t, (t, ⟨i, T⟩) ∈ runs

theorem covers_stageTasks (N : Nat) : Covers N (stageTasks N) := fun i hi =>
  ⟨i, List.mem_map.mpr ⟨i, List.mem_range.mpr hi, rfl⟩⟩

theorem covers_below {T : Nat} {k : Kind Row} {tc cs} {runs : List (Nat × TaskCtx)} (h : NodeOk T (.node k tc cs)) (hn : k.isNet = false)
    (hc : Covers T runs) {i : Nat} (hi : i < cs.length) : Covers (childCount k T i) (runsBelow k runs i) := by
  rcases isCiu k with ⟨ws, m, rfl⟩ | hk
  · obtain ⟨hlen, honce, kk, hr⟩ := h.1 ws m rfl
    have hcc : childCount (Row := Row) (.ciu ws m) T i = kk i := unionCount_eq hr hi
    rw [hcc]
    intro j hj
    have hmem : ((i, ⟨j, kk i⟩) : Nat × TaskCtx) ∈ m.flatten := hr.2.mem_iff.mpr (Union.mem_childTasks.mpr ⟨hi, hj, rfl⟩)
    obtain ⟨es, hes, he⟩ := List.mem_flatten.mp hmem
    obtain ⟨a, ha, rfl⟩ := List.getElem_of_mem hes
    obtain ⟨t, ht⟩ := hc a (by omega)
    refine ⟨t, List.mem_filterMap.mpr ⟨_, ht, ?_⟩⟩
    have := (childCtx_iff (Row := Row) (ws := ws) (m := m) (ctx := ⟨a, T⟩) (List.getElem?_eq_getElem ha) (honce _ hes) i ⟨j, kk i⟩).mpr he
    simp only [this, Option.map_some]
  · rw [childCount_same hn hk]
    intro j hj
    obtain ⟨t, ht⟩ := hc j hj
    exact ⟨t, List.mem_filterMap.mpr ⟨_, ht, by simp only [childCtx_other hk, Option.map_some]⟩⟩

theorem runsBelow_lt {k : Kind Row} {runs : List (Nat × TaskCtx)} {N i : Nat} (h : ∀ r ∈ runs, r.1 < N) : ∀ r ∈ runsBelow k runs i, r.1 < N := by
  intro r hr
  obtain ⟨r', h1, h2⟩ := List.mem_filterMap.mp hr
  obtain ⟨ctx, _, rfl⟩ := Option.map_eq_some_iff.mp h2
  exact h r' h1

theorem stageTasks_lt {N : Nat} : ∀ r ∈ stageTasks N, r.1 < N := by
  intro r hr
  obtain ⟨i, hi, rfl⟩ := List.mem_map.mp hr
  exact List.mem_range.mp hi

/-- Every task of the input stage is read by somebody. -/
def Site.Full (s : Site Row) : Prop := ∀ j < s.kind.tasks, ∃ d ∈ s.streams, d.writer = j

theorem full_of_asks {T : Nat} {above : Nat} {k : Kind Row} {runs : List (Nat × TaskCtx)} (ha : Asks T k) (hc : Covers T runs) :
    (Site.mk above k runs).Full := by
  intro j hj
  obtain ⟨i, hi, q, hq, pulls, hp, r, hr, rfl⟩ := ha j hj
  obtain ⟨t, ht⟩ := hc i hi
  refine ⟨⟨r.task, t, r.partition⟩, ?_, rfl⟩
  unfold Site.streams
  refine List.mem_flatMap.mpr ⟨_, ht, List.mem_flatMap.mpr ⟨q, List.mem_range.mpr hq, ?_⟩⟩
  simp only [hp]
  exact List.mem_map.mpr ⟨r, hr, rfl⟩

/-- What is known of the boundaries `l` found in a plan that is run by `N` tasks of stage `above`, the first of them being stage number
`next`: the stage above each one comes first, has the tasks that run it, and every task of a stage is read. -/
def Placed (above next N : Nat) (l : List (Site Row)) : Prop :=
  ∀ j s, l[j]? = some s → s.above < next + j ∧ s.Full ∧
    ((s.above = above ∧ ∀ r ∈ s.runs, r.1 < N)
      ∨ ∃ j' s', s.above = next + j' ∧ l[j']? = some s' ∧ ∀ r ∈ s.runs, r.1 < s'.kind.tasks)

theorem Placed.append {above next N : Nat} {l l' : List (Site Row)} (h : Placed above next N l)
    (h' : Placed above (next + l.length) N l') : Placed above next N (l ++ l') := by
  intro j s hj
  by_cases hlt : j < l.length
  · rw [List.getElem?_append_left hlt] at hj
    obtain ⟨h1, h2, h3⟩ := h j s hj
    refine ⟨h1, h2, ?_⟩
    rcases h3 with h3 | ⟨j', s', h3, h4, h5⟩
    · exact .inl h3
    · have := (List.getElem?_eq_some_iff.mp h4).1
      exact .inr ⟨j', s', h3, by rw [List.getElem?_append_left this]; exact h4, h5⟩
  · have hle : l.length ≤ j := by omega
    rw [List.getElem?_append_right hle] at hj
    obtain ⟨h1, h2, h3⟩ := h' _ s hj
    refine ⟨by omega, h2, ?_⟩
    rcases h3 with h3 | ⟨j', s', h3, h4, h5⟩
    · exact .inl h3
    · refine .inr ⟨l.length + j', s', by omega, ?_, h5⟩
      rw [List.getElem?_append_right (by omega)]
      simpa using h4

theorem sites_placed : ∀ (p : Plan Row) (above next T N : Nat) (runs : List (Nat × TaskCtx)), above < next → Wired T p → Covers T runs →
    (∀ r ∈ runs, r.1 < N) → Placed above next N (sites above next runs p)
  | .node k tc cs, above, next, T, N, runs, hlt, hw, hcov, hb => by
    have hall : ∀ (l : List (Plan Row)) (above next N : Nat) (T : Nat → Nat) (runs : Nat → List (Nat × TaskCtx)), (∀ c ∈ l, c ∈ cs) → above < next →
        (∀ (i : Nat) c, l[i]? = some c → Wired (T i) c ∧ Covers (T i) (runs i) ∧ ∀ r ∈ runs i, r.1 < N) →
        Placed above next N (sitesAll above next runs l) := by
      intro l
      induction l with
      | nil => intro _ _ _ _ _ _ _ _ j s hj; rw [sitesAll] at hj; cases hj
      | cons c l ih =>
        intro above next N T runs hsub hlt h
        rw [sitesAll]
        obtain ⟨h1, h2, h3⟩ := h 0 c rfl
        have : sizeOf c < sizeOf cs := List.sizeOf_lt_of_mem (hsub c (by simp))
        refine (sites_placed c above next (T 0) N (runs 0) hlt h1 h2 h3).append ?_
        exact ih above _ N (fun i => T (i + 1)) (fun i => runs (i + 1)) (fun c hc => hsub c (List.mem_cons_of_mem _ hc)) (by omega)
          (fun i c hc => h (i + 1) c hc)
    have hnode := hw T _ .root
    rw [sites]
    cases hn : k.isNet with
    | false =>
      rw [if_neg (by simp)]
      refine hall cs above next N (childCount k T) _ (fun _ h => h) hlt fun i c hc => ?_
      exact ⟨hw.child hc, covers_below hnode hn hcov (List.getElem?_eq_some_iff.mp hc).1, runsBelow_lt hb⟩
    | true =>
      rw [if_pos rfl]
      have hcc : ∀ i, childCount k T i = k.tasks := by intro i; cases k <;> first | rfl | cases hn
      have hbelow := hall cs next (next + 1) k.tasks (fun _ => k.tasks) (fun _ => stageTasks k.tasks) (fun _ h => h) (by omega)
        (fun i c hc => ⟨hcc i ▸ hw.child hc, covers_stageTasks _, stageTasks_lt⟩)
      intro j s hj
      cases j with
      | zero =>
        cases hj
        exact ⟨hlt, full_of_asks (hnode.2 hn) hcov, .inl ⟨rfl, hb⟩⟩
      | succ j =>
        obtain ⟨h1, h2, h3⟩ := hbelow j s hj
        refine ⟨by omega, h2, .inr ?_⟩
        rcases h3 with ⟨h3, h4⟩ | ⟨j', s', h3, h4, h5⟩
        · exact ⟨0, _, h3, rfl, h4⟩
        · exact ⟨j' + 1, s', by omega, h4, h5⟩
termination_by p => sizeOf p

end DD.Net
