/-
A legal plan, executed by its tasks, produces its meaning.
-/
import Verif.Lemmas.PlanRows

namespace DD.Tree

variable {Row : Type}

/-! ### Unfolding -/

theorem runAll_eq (cs : List (Plan Row)) : runAll cs = cs.map runBoth := by
  induction cs with
  | nil => rfl
  | cons c cs ih => rw [runAll, ih]; rfl

theorem answerAll_iff (cs : List (Plan Row)) : ∀ ds, AnswerAll cs ds ↔
    ds.length = cs.length ∧ ∀ (i : Nat) c d, cs[i]? = some c → ds[i]? = some d → Answer c d := by
  induction cs with
  | nil =>
    intro ds
    simp only [AnswerAll]
    exact ⟨fun h => by subst h; simp, fun h => by simpa using h.1⟩
  | cons c cs ih =>
    intro ds
    simp only [AnswerAll]
    constructor
    · rintro ⟨d, rest, rfl, h1, h2⟩
      obtain ⟨hl, h⟩ := (ih rest).mp h2
      refine ⟨by simp [hl], ?_⟩
      intro i c' d' e1 e2
      match i with
      | 0 => simp at e1 e2; subst e1 e2; exact h1
      | i + 1 => simp at e1 e2; exact h i c' d' e1 e2
    · rintro ⟨hl, h⟩
      match ds, hl with
      | d :: rest, hl =>
        refine ⟨d, rest, rfl, h 0 c d rfl rfl, (ih rest).mpr ⟨by simpa using hl, ?_⟩⟩
        intro i c' d' e1 e2
        exact h (i + 1) c' d' (by simpa using e1) (by simpa using e2)

theorem answer_node {k : Kind Row} {tc : TaskCount} {cs : List (Plan Row)} {d : List Row} :
    Answer (.node k tc cs) d ↔ ∃ ds, (ds.length = cs.length ∧
      ∀ (i : Nat) c d, cs[i]? = some c → ds[i]? = some d → Answer c d) ∧ ansKind k ds d := by
  simp only [Answer, answerAll_iff]

/-- Every node returns something. -/
theorem ansKind_exists (k : Kind Row) (ds : List (List Row)) : ∃ d, ansKind k ds d := by
  cases k with
  | op g red => exact ⟨_, g.ok true ⟨0, 1⟩ 0 ds⟩
  | coalesce f => cases f with
    | none => exact ⟨_, rfl⟩
    | some g => exact ⟨_, g.ok true ⟨0, 1⟩ 0 [ds.getD 0 []]⟩
  | spm f => cases f with
    | none => exact ⟨_, rfl⟩
    | some g => exact ⟨_, g.ok true ⟨0, 1⟩ 0 [ds.getD 0 []]⟩
  | _ => exact ⟨_, rfl⟩

/- Every plan has an answer. -/
mutual
theorem answer_exists : ∀ p : Plan Row, ∃ d, Answer p d
  | .node k tc cs => by
    obtain ⟨ds, h⟩ := answerAll_exists cs
    obtain ⟨d, hd⟩ := ansKind_exists k ds
    exact ⟨d, by rw [Answer]; exact ⟨ds, h, hd⟩⟩
theorem answerAll_exists : ∀ cs : List (Plan Row), ∃ ds, AnswerAll cs ds
  | [] => ⟨[], by rw [AnswerAll]⟩
  | c :: cs => by
    obtain ⟨d, h⟩ := answer_exists c
    obtain ⟨ds, hs⟩ := answerAll_exists cs
    exact ⟨d :: ds, by rw [AnswerAll]; exact ⟨d, ds, rfl, h, hs⟩⟩
end

/-- A list of answers for a list of plans. -/
theorem exists_list {α β} {P : Nat → α → β → Prop} : ∀ (cs : List α), (∀ (i : Nat) c, cs[i]? = some c → ∃ d, P i c d) →
    ∃ ds : List β, ds.length = cs.length ∧ ∀ (i : Nat) c d, cs[i]? = some c → ds[i]? = some d → P i c d := by
  intro cs
  induction cs generalizing P with
  | nil => intro _; exact ⟨[], rfl, by simp⟩
  | cons c cs ih =>
    intro h
    obtain ⟨d, hd⟩ := h 0 c rfl
    obtain ⟨ds, hl, hds⟩ := ih (P := fun i c d => P (i + 1) c d) fun i c' e => h (i + 1) c' (by simpa using e)
    refine ⟨d :: ds, by simp [hl], ?_⟩
    intro i c' d' e1 e2
    match i with
    | 0 => simp at e1 e2; subst e1 e2; exact hd
    | i + 1 => exact hds i c' d' (by simpa using e1) (by simpa using e2)

theorem answer_one {k : Kind Row} {tc : TaskCount} {c : Plan Row} {d : List Row} :
    Answer (.node k tc [c]) d ↔ ∃ a, Answer c a ∧ ansKind k [a] d := by
  simp only [Answer, AnswerAll]
  constructor
  · rintro ⟨_, ⟨a, _, rfl, h, rfl⟩, hd⟩; exact ⟨a, h, hd⟩
  · rintro ⟨a, h, hd⟩; exact ⟨_, ⟨a, _, rfl, h, rfl⟩, hd⟩

theorem answer_two {k : Kind Row} {tc : TaskCount} {b c : Plan Row} {d : List Row} :
    Answer (.node k tc [b, c]) d ↔ ∃ x y, Answer b x ∧ Answer c y ∧ ansKind k [x, y] d := by
  simp only [Answer, AnswerAll]
  constructor
  · rintro ⟨_, ⟨x, _, rfl, h, y, _, rfl, h', rfl⟩, hd⟩; exact ⟨x, y, h, h', hd⟩
  · rintro ⟨x, y, h, h', hd⟩; exact ⟨_, ⟨x, _, rfl, h, y, _, rfl, h', rfl⟩, hd⟩

theorem flatten_eq_range {α} (l : List (List α)) : l.flatten = (List.range l.length).flatMap fun q => l.getD q [] := by
  rw [List.flatten_eq_flatMap]
  have : l = (List.range l.length).map fun q => l.getD q [] := by
    apply List.ext_getElem
    · simp
    · intro i h1 h2; simp [h1]
  rw [show l.flatMap id = ((List.range l.length).map fun q => l.getD q []).flatMap id from congrArg (List.flatMap id) this,
    List.flatMap_map]
  rfl

/-- Replacing the children of a node by plans with the same answers. -/
theorem answer_congr {k : Kind Row} {tc tc' : TaskCount} {cs cs' : List (Plan Row)} (hl : cs'.length = cs.length)
    (h : ∀ (i : Nat) c', cs'[i]? = some c' → ∀ c, cs[i]? = some c → Answer c' = Answer c) :
    Answer (.node k tc cs') = Answer (.node k tc' cs) := by
  funext d
  apply propext
  simp only [answer_node]
  constructor
  · rintro ⟨ds, ⟨hd, ha⟩, hk⟩
    refine ⟨ds, ⟨by omega, ?_⟩, hk⟩
    intro i c d e1 e2
    have := (List.getElem?_eq_some_iff.mp e1).1
    have hi : cs'[i]? = some (cs'[i]'(by omega)) := by simp
    rw [← h i _ hi c e1]
    exact ha i _ d hi e2
  · rintro ⟨ds, ⟨hd, ha⟩, hk⟩
    refine ⟨ds, ⟨by omega, ?_⟩, hk⟩
    intro i c' d e1 e2
    have := (List.getElem?_eq_some_iff.mp e1).1
    have hi : cs[i]? = some (cs[i]'(by omega)) := by simp
    rw [h i _ e1 _ hi]
    exact ha i _ d hi e2

theorem answer_unary {k : Kind Row} {tc tc' : TaskCount} {c c' : Plan Row} (e : Answer c' = Answer c) :
    Answer (.node k tc [c']) = Answer (.node k tc' [c]) :=
  answer_congr rfl fun i x hx y hy => by
    match i with
    | 0 => simp at hx hy; subst hx hy; exact e
    | i + 1 => simp at hx

theorem answer_binary {k : Kind Row} {tc tc' : TaskCount} {b b' c c' : Plan Row} (e : Answer b' = Answer b)
    (e' : Answer c' = Answer c) : Answer (.node k tc [b', c']) = Answer (.node k tc' [b, c]) :=
  answer_congr rfl fun i x hx y hy => by
    match i with
    | 0 => simp at hx hy; subst hx hy; exact e
    | 1 => simp at hx hy; subst hx hy; exact e'
    | i + 2 => simp at hx

/-- Replacing the children of a node by plans with the same answers up to the equivalences the node respects. -/
theorem answer_sub {k : Kind Row} {tc tc' : TaskCount} {cs cs' : List (Plan Row)} {Es : List (RowEq Row)} {E : RowEq Row}
    (hk : ∀ as bs x, SameInputs Es as bs → ansKind k as x → ∃ y, ansKind k bs y ∧ E.eqv x y)
    (hl : cs'.length = cs.length) (hl' : cs.length = Es.length)
    (h : ∀ (i : Nat) c' c F, cs'[i]? = some c' → cs[i]? = some c → Es[i]? = some F → F.sub (Answer c') (Answer c)) :
    E.sub (Answer (.node k tc cs')) (Answer (.node k tc' cs)) := by
  intro x hx
  obtain ⟨ds, ⟨hd, ha⟩, hx⟩ := answer_node.mp hx
  obtain ⟨bs, hbl, hb⟩ := exists_list (P := fun i c b => Answer c b ∧ ∀ F d, Es[i]? = some F → ds[i]? = some d → F.eqv d b) cs (by
    intro i c e
    have := (List.getElem?_eq_some_iff.mp e).1
    have h1 : cs'[i]? = some (cs'[i]'(by omega)) := by simp
    have h2 : ds[i]? = some (ds[i]'(by omega)) := by simp
    have h3 : Es[i]? = some (Es[i]'(by omega)) := by simp
    obtain ⟨b, hb, e'⟩ := h i _ c _ h1 e h3 _ (ha i _ _ h1 h2)
    refine ⟨b, hb, ?_⟩
    intro F d f1 f2
    rw [h3] at f1; rw [h2] at f2
    cases f1; cases f2
    exact e')
  have hs : SameInputs Es ds bs := SameInputs.of_getElem (by omega) (by omega) (by
    intro i F a b e1 e2 e3
    have := (List.getElem?_eq_some_iff.mp e3).1
    have h1 : cs[i]? = some (cs[i]'(by omega)) := by simp
    exact (hb i _ b h1 e3).2 F a e1 e2)
  obtain ⟨y, hy, e⟩ := hk ds bs x hs hx
  exact ⟨y, answer_node.mpr ⟨bs, ⟨hbl, fun i c b e1 e2 => (hb i c b e1 e2).1⟩, hy⟩, e⟩

theorem answer_sub1 {k : Kind Row} {tc tc' : TaskCount} {c c' : Plan Row} {F E : RowEq Row}
    (hk : ∀ a b x, F.eqv a b → ansKind k [a] x → ∃ y, ansKind k [b] y ∧ E.eqv x y)
    (h : F.sub (Answer c') (Answer c)) : E.sub (Answer (.node k tc [c'])) (Answer (.node k tc' [c])) := by
  intro x hx
  obtain ⟨a, ha, hx⟩ := answer_one.mp hx
  obtain ⟨b, hb, e⟩ := h a ha
  obtain ⟨y, hy, e'⟩ := hk a b x e hx
  exact ⟨y, answer_one.mpr ⟨b, hb, hy⟩, e'⟩

theorem answer_sub_pass {k k' : Kind Row} (hk : ∀ ds d, ansKind k ds d ↔ d = ds.getD 0 [])
    (hk' : ∀ ds d, ansKind k' ds d ↔ d = ds.getD 0 []) {tc tc' : TaskCount} {c c' : Plan Row} {E : RowEq Row}
    (h : E.sub (Answer c') (Answer c)) : E.sub (Answer (.node k tc [c'])) (Answer (.node k' tc' [c])) := by
  intro x hx
  obtain ⟨a, ha, hx⟩ := answer_one.mp hx
  rw [hk] at hx
  obtain rfl : x = a := hx
  obtain ⟨b, hb, e⟩ := h x ha
  exact ⟨b, answer_one.mpr ⟨b, hb, (hk' _ _).mpr rfl⟩, e⟩

theorem answer_sub_join {m m' : JoinMode} {s : JoinSpec Row} (hu : s.Unordered) {tc tc' : TaskCount} {b b' c c' : Plan Row}
    (h : RowEq.perm.sub (Answer b') (Answer b)) (h' : RowEq.perm.sub (Answer c') (Answer c)) :
    RowEq.perm.sub (Answer (.node (.join m s) tc [b', c'])) (Answer (.node (.join m' s) tc' [b, c])) := by
  intro x hx
  obtain ⟨a1, a2, h1, h2, rfl⟩ := answer_two.mp hx
  obtain ⟨b1, g1, e1⟩ := h a1 h1
  obtain ⟨b2, g2, e2⟩ := h' a2 h2
  exact ⟨_, answer_two.mpr ⟨b1, b2, g1, g2, rfl⟩, joinRows_perm s hu e1 e2⟩

/-- The same for unions. -/
theorem answer_sub_union {k k' : Kind Row} (hk : k = .union ∨ ∃ ws m, k = .ciu ws m) (hk' : k' = .union ∨ ∃ ws m, k' = .ciu ws m)
    {tc tc' : TaskCount} {cs cs' : List (Plan Row)} {E : RowEq Row} (hl : cs'.length = cs.length)
    (h : ∀ (i : Nat) c' c, cs'[i]? = some c' → cs[i]? = some c → E.sub (Answer c') (Answer c)) :
    E.sub (Answer (.node k tc cs')) (Answer (.node k' tc' cs)) := by
  have hk1 : ∀ ds d, ansKind k ds d ↔ d = ds.flatten := by
    intro ds d; rcases hk with rfl | ⟨_, _, rfl⟩ <;> rfl
  have hk2 : ∀ ds d, ansKind k' ds d ↔ d = ds.flatten := by
    intro ds d; rcases hk' with rfl | ⟨_, _, rfl⟩ <;> rfl
  have := answer_sub (k := .union) (tc := tc) (tc' := tc') (cs := cs) (cs' := cs') (Es := cs.map fun _ => E) (E := E) (by
    intro as bs x hs hx
    refine ⟨_, rfl, ?_⟩
    change x = _ at hx
    subst hx
    obtain ⟨h1, h2, h3⟩ := hs.get
    rw [flatten_eq_range as, flatten_eq_range bs, show as.length = bs.length by omega]
    apply E.flatMap
    intro i hi
    have hi := List.mem_range.mp hi
    have g1 : as[i]? = some (as.getD i []) := by simp [show i < as.length by omega]
    have g2 : bs[i]? = some (bs.getD i []) := by simp [hi]
    have g3 : (cs.map fun _ => E)[i]? = some E := by
      have : i < cs.length := by simp at h1 h2; omega
      simp [this]
    exact h3 i E _ _ g3 g1 g2) hl (by simp) (by
    intro i c' c F e1 e2 e3
    have : F = E := by
      rw [List.getElem?_map, e2] at e3
      simpa using e3.symm
    subst this
    exact h i c' c e1 e2)
  intro x hx
  obtain ⟨y, hy, e⟩ := this x (by
    rw [answer_node] at hx ⊢
    obtain ⟨ds, h1, h2⟩ := hx
    exact ⟨ds, h1, (hk1 _ _).mp h2⟩)
  refine ⟨y, ?_, e⟩
  rw [answer_node] at hy ⊢
  obtain ⟨ds, h1, h2⟩ := hy
  exact ⟨ds, h1, (hk2 _ _).mpr h2⟩

/-- A node that passes its input on. -/
theorem answer_pass {k : Kind Row} (hk : ∀ ds d, ansKind k ds d ↔ d = ds.getD 0 []) (tc : TaskCount) (c : Plan Row) (cs : List (Plan Row)) :
    Answer (.node k tc (c :: cs)) = Answer c := by
  funext d
  apply propext
  rw [Answer]
  simp only [AnswerAll, hk]
  constructor
  · rintro ⟨_, ⟨a, rest, rfl, h, _⟩, rfl⟩; exact h
  · intro h
    obtain ⟨rest, hr⟩ := answerAll_exists cs
    exact ⟨_, ⟨d, rest, rfl, h, hr⟩, rfl⟩

theorem run_node (k : Kind Row) (tc : TaskCount) (cs : List (Plan Row)) :
    run (.node k tc cs) = runKind k (cs.map runBoth) := by
  rw [run, runBoth, runAll_eq]

theorem runBoth_fst (p : Plan Row) : (runBoth p).1 = run p := rfl

theorem runBoth_snd (p : Plan Row) : (runBoth p).2 = if p.kind.isHead then ((p.children.map runBoth).getD 0 (.none, .none)).1 else run p := by
  cases p with
  | node k tc cs => rw [runBoth, runAll_eq, run_node]; rfl

/-- The worker executes the input of a boundary without its head. -/
theorem runBoth_strip (p : Plan Row) (h : p.kind.isHead = true → p.children ≠ []) : (runBoth p).2 = run (strip p) := by
  cases p with
  | node k tc cs =>
    rw [runBoth_snd]
    by_cases hk : k.isHead = true
    · cases cs with
      | nil => exact absurd rfl (h hk)
      | cons c cs =>
        rw [if_pos (show (Plan.node k tc (c :: cs)).kind.isHead = true from hk)]
        simp only [strip, if_pos hk]
        rfl
    · rw [if_neg (show ¬ (Plan.node k tc cs).kind.isHead = true from hk)]
      cases cs with
      | nil => rfl
      | cons c cs => simp only [strip, if_neg hk]

theorem ansKind_head {k : Kind Row} (h : k.isHead = true ∨ k.isNet = true) (ds d) : ansKind k ds d ↔ d = ds.getD 0 [] := by
  cases k <;> simp [Kind.isHead, Kind.isNet] at h <;> rfl

theorem answer_strip (p : Plan Row) : Answer (strip p) = Answer p := by
  cases p with
  | node k tc cs =>
    cases cs with
    | nil => rfl
    | cons c cs =>
      simp only [strip]
      split
      · rename_i h
        exact (answer_pass (ansKind_head (.inl h)) tc c cs).symm
      · rfl

/-! ### Helpers on shares -/

theorem share_eq (r : Ran Row) (w : Bool) (T : Nat) :
    ((List.range T).flatMap fun i => r.rows w ⟨i, T⟩)
      = (List.range T).flatMap fun i => (List.range r.parts).flatMap fun q => r.exec w ⟨i, T⟩ q := rfl

theorem getD_map {α β} (l : List α) (f : α → β) (i : Nat) (d : α) : (l.map f).getD i (f d) = f (l.getD i d) := by
  simp only [List.getD_eq_getElem?_getD, List.getElem?_map]
  cases l[i]? <;> rfl

theorem unionExec_rows (w : Bool) (ctx : TaskCtx) : ∀ (cs : List (Ran Row)),
    ((List.range (cs.map (·.parts)).sum).flatMap (unionExec w ctx cs)) = cs.flatMap fun c => c.rows w ctx
  | [] => rfl
  | c :: cs => by
    simp only [List.map_cons, List.sum_cons, List.flatMap_cons, List.range_add, List.flatMap_append,
      List.flatMap_map]
    congr 1
    · apply flatMap_congr'
      intro q hq
      simp only [unionExec, if_pos (List.mem_range.mp hq)]
    · rw [← unionExec_rows w ctx cs]
      apply flatMap_congr'
      intro q _
      simp [unionExec]

theorem ciuExec_nil (w : Bool) (cs : List (Ran Row)) (q : Nat) : ciuExec w cs [] q = [] := rfl

/-- The partitions of one task of an isolated union: those of the child tasks assigned to it, padded with
empty ones. -/
theorem ciuExec_rows (w : Bool) (cs : List (Ran Row)) : ∀ (es : List Union.Entry) (P : Nat),
    (∀ e ∈ es, e.1 < cs.length) → (es.map fun e => (cs.map (·.parts)).getD e.1 0).sum ≤ P →
    (List.range P).flatMap (ciuExec w cs es) = es.flatMap fun e => (cs.getD e.1 .none).rows w e.2
  | [], P, _, _ => by
    rw [flatMap_congr' (g := fun _ => []) fun q _ => ciuExec_nil w cs q]
    exact flatMap_nil' _
  | e :: es, P, hv, hP => by
    obtain ⟨c, ctx⟩ := e
    have hc : c < cs.length := hv (c, ctx) (List.mem_cons_self ..)
    have hget : (cs.map (·.parts)).getD c 0 = (cs.getD c .none).parts := getD_map cs (·.parts) c .none
    have hget? : (cs.map (·.parts))[c]? = some (cs.getD c .none).parts := by simp [hc]
    simp only [List.map_cons, List.sum_cons, hget] at hP
    obtain ⟨m, rfl⟩ := Nat.exists_eq_add_of_le (Nat.le_trans (Nat.le_add_right _ _) hP)
    rw [List.range_add, List.flatMap_append, List.flatMap_cons, List.flatMap_map]
    congr 1
    · apply flatMap_congr'
      intro q hq
      simp only [ciuExec, Union.execIn, hget?, if_pos (List.mem_range.mp hq)]
    · rw [← ciuExec_rows w cs es m (fun e he => hv e (List.mem_cons_of_mem _ he)) (by omega)]
      apply flatMap_congr'
      intro q _
      simp [ciuExec, Union.execIn, hget?]

theorem le_foldl_max (l : List Nat) : ∀ a, a ≤ l.foldl max a ∧ ∀ x ∈ l, x ≤ l.foldl max a := by
  induction l with
  | nil => intro a; simp
  | cons y l ih =>
    intro a
    obtain ⟨h1, h2⟩ := ih (max a y)
    simp only [List.foldl_cons]
    refine ⟨by omega, ?_⟩
    intro x hx
    rcases List.mem_cons.mp hx with rfl | hx
    · omega
    · exact h2 x hx

theorem ciuParts_le {m : Union.TaskMap} {parts : List Nat} {es} (h : es ∈ m) :
    (es.map fun e => parts.getD e.1 0).sum ≤ ciuParts m parts :=
  (le_foldl_max _ 0).2 _ (List.mem_map.mpr ⟨es, h, rfl⟩)

/-! ### Partition counts are positive -/

theorem Legal.pos {ph : Bool} {T : Nat} {p : Plan Row} {I : Info Row} (h : Legal ph T p I) : 0 < I.parts := by
  induction h with
  | leaf h => exact List.length_pos_iff.mpr h
  | distLeaf h => exact h
  | opLocal _ _ _ _ ih => exact ih
  | @opKeyed tc g red cs T P hs Es d' E' _ _ _ hne hl hl' _ ih =>
    have h0 : 0 < cs.length := List.length_pos_iff.mpr hne
    exact ih 0 cs[0] hs[0] Es[0] (by simp) (by simp) (by simp)
  | opSingle => exact Nat.one_pos
  | joinSafe _ _ _ _ _ _ ih => exact ih
  | joinSingle _ _ _ _ _ ih => exact ih
  | joinPart _ _ _ _ _ ih => exact ih
  | @union tc cs T E Ps hne hl _ ih =>
    have h0 : 0 < cs.length := List.length_pos_iff.mpr hne
    have h1 : 0 < Ps.length := by omega
    have := ih 0 cs[0] Ps[0] (by simp) (by simp)
    cases Ps with
    | nil => simp at h1
    | cons P Ps => simp at this ⊢; omega
  | @ciu tc ws m cs T E k Ps hne hl hm hr _ _ ih =>
    have h0 : 0 < cs.length := List.length_pos_iff.mpr hne
    have h1 : 0 < Ps.length := by omega
    have hP := ih 0 cs[0] Ps[0] (by simp) (by simp)
    simp only at hP
    have hmem : ((0, ⟨0, k 0⟩) : Union.Entry) ∈ m.flatten :=
      hr.2.mem_iff.mpr (Union.mem_childTasks.mpr ⟨h0, hr.1 0 h0, rfl⟩)
    obtain ⟨es, hes, he⟩ := List.mem_flatten.mp hmem
    have h2 := ciuParts_le (parts := Ps) hes
    have h3 : Ps.getD 0 0 ≤ (es.map fun e => Ps.getD e.1 0).sum :=
      List.le_sum_of_mem (List.mem_map.mpr ⟨_, he, rfl⟩)
    have h4 : Ps.getD 0 0 = Ps[0] := by simp [h1]
    exact Nat.lt_of_lt_of_le (by omega : 0 < Ps.getD 0 0) (Nat.le_trans h3 h2)
  | hashRepart h => exact h
  | otherRepart h => exact h
  | coalesce => exact Nat.one_pos
  | spm => exact Nat.one_pos
  | fetch => exact Nat.one_pos
  | broadcast _ ih => exact ih
  | shuffle h => exact h
  | netCoalesce _ hp _ _ _ ih =>
    simp only at ih ⊢
    rw [hp]
    exact Nat.mul_pos ih (by omega)
  | netBroadcast _ _ _ ih => exact ih
  | forget _ ih => exact ih
  | trivial _ ih => exact ih
  | repFlip _ ih => exact ih
  | coarsen _ _ ih => exact ih

/-! ### One lemma per rule -/

theorem good_leaf (ps : List (List Row)) (tc : TaskCount) (w : Bool) :
    Good (run (.node (.leaf ps) tc [])) w 1 ⟨ps.length, none, false, .perm⟩ ps.flatten := by
  refine ⟨rfl, fun _ => ?_, fun h => by simp at h, fun h hh => by simp at hh⟩
  rw [flatten_eq_range]
  simp only [List.range_one, List.flatMap_cons, List.flatMap_nil, List.append_nil]
  exact RowEq.refl _ _

theorem good_distLeaf {tc o T P} {vs : List (List (List Row))} (hT : 0 < T) (h1 : vs.length = T)
    (h2 : ∀ v ∈ vs, v.length = P) (h3 : T = 1 → o.length = P) (h4 : (vs.flatten.flatten).Perm o.flatten)
    (w : Bool) :
    Good (run (.node (.distLeaf o vs) tc [])) w T ⟨P, none, false, .perm⟩ o.flatten := by
  have hlen : ∀ i < T, (vs.getD i []).length = P := by
    intro i hi
    apply h2
    have : vs.getD i [] = vs[i] := by simp [h1, hi]
    rw [this]
    exact List.getElem_mem _
  have hp : (vs.headD []).length = P := by
    have := hlen 0 hT
    cases vs with
    | nil => simp at h1; omega
    | cons v vs => simpa using this
  refine ⟨hp, fun _ => ?_, fun h => by simp at h, fun h hh => by simp at hh⟩
  rw [share_eq]
  show List.Perm ((List.range T).flatMap fun i => (List.range (vs.headD []).length).flatMap fun q =>
    if (w || T != 1) = true then (vs.getD i []).getD q [] else o.getD q []) o.flatten
  rw [hp]
  by_cases hb : (w || T != 1) = true
  · refine (List.Perm.of_eq ?_).trans h4
    have h5 : vs.flatten.flatten = vs.flatMap List.flatten := by
      rw [List.flatten_flatten]; exact List.flatMap_def.symm
    have h6 : vs.flatMap List.flatten = (List.range vs.length).flatMap fun i => (vs.getD i []).flatten := by
      have : vs = (List.range vs.length).map fun q => vs.getD q [] := by
        apply List.ext_getElem
        · simp
        · intro i h1 h2; simp [h1]
      rw [show vs.flatMap List.flatten = ((List.range vs.length).map fun q => vs.getD q []).flatMap List.flatten
        from congrArg (List.flatMap List.flatten) this, List.flatMap_map]
    rw [h5, h6, h1]
    apply flatMap_congr'
    intro i hi
    rw [flatten_eq_range, hlen i (List.mem_range.mp hi)]
    apply flatMap_congr'
    intro q _
    rw [if_pos hb]
  · have hT1 : T = 1 := by
      simp at hb; exact hb.2
    subst hT1
    rw [flatten_eq_range, h3 rfl]
    simp only [List.range_one, List.flatMap_cons, List.flatMap_nil, List.append_nil, if_neg hb]
    exact .refl _

theorem good_opLocal {tc g red} {c : Plan Row} {T P d d'} {E E' : RowEq Row} (hg : Hom E E' g)
    (hd : ∀ h', d' = some h' → ∃ h, d = some h ∧ KeepsBuckets [h] h' g) {w : Bool}
    {a : List Row} (hc : Good (run c) w T ⟨P, d, false, E⟩ a) :
    ∃ x, g.may [a] x ∧ Good (run (.node (.op g red) tc [c])) w T ⟨P, d', false, E'⟩ x := by
  have hr : run (.node (.op g red) tc [c]) = ⟨(run c).parts, fun w ctx q => g.exec w ctx q [(run c).exec w ctx q]⟩ := by
    rw [run_node]; rfl
  rw [hr]
  have h1 : ∀ i, ∃ z, g.may [(run c).rows w ⟨i, T⟩] z ∧ E'.eqv
      ((List.range (run c).parts).flatMap fun q => g.exec w ⟨i, T⟩ q [(run c).exec w ⟨i, T⟩ q]) z := fun i =>
    hg.flatMap _ _ _ fun q _ => g.ok _ _ _ _
  obtain ⟨z, hz⟩ := Classical.axiomOfChoice h1
  obtain ⟨y, hy, ey⟩ := hg.flatMap (List.range T) (fun i => (run c).rows w ⟨i, T⟩) z fun i _ => (hz i).1
  obtain ⟨x, hx, ex⟩ := hg.congr _ _ _ (hc.share rfl) hy
  refine ⟨x, hx, hc.parts, fun _ => ?_, fun h => by simp at h, ?_⟩
  · exact E'.trans (E'.flatMap fun i _ => (hz i).2) (E'.trans ey ex)
  · intro h' hh' i hi q hq x hx
    obtain ⟨h, hh, hk⟩ := hd h' hh'
    refine hk _ _ _ _ rfl (g.ok _ _ _ _) ?_ x hx
    intro j h1 a e1 e2 y hy
    match j with
    | 0 =>
      simp at e1 e2; subst e1 e2
      exact hc.dist h hh i hi q hq y hy
    | j + 1 => simp at e1

theorem good_opKeyed {tc g red} {cs : List (Plan Row)} {T P} {hs : List (Row → Nat)} {Es : List (RowEq Row)} {d'}
    {E' : RowEq Row} (hT : 0 < T) (hP : 0 < P) (hk : Keyed Es E' hs g)
    (hd : ∀ h', d' = some h' → KeepsBuckets hs h' g) (hne : cs ≠ [])
    (hl : cs.length = hs.length) (hl' : cs.length = Es.length) {w : Bool} {ds : List (List Row)} (hds : ds.length = cs.length)
    (hc : ∀ (i : Nat) c h E d, cs[i]? = some c → hs[i]? = some h → Es[i]? = some E → ds[i]? = some d →
      Good (run c) w T ⟨P, some h, false, E⟩ d) :
    ∃ x, g.may ds x ∧ Good (run (.node (.op g red) tc cs)) w T ⟨P, d', false, E'⟩ x := by
  have hget : ∀ (i : Nat) c, cs[i]? = some c → ∃ h E d, hs[i]? = some h ∧ Es[i]? = some E ∧ ds[i]? = some d := by
    intro i c hi
    have := (List.getElem?_eq_some_iff.mp hi).1
    exact ⟨hs[i]'(by omega), Es[i]'(by omega), ds[i]'(by omega), by simp, by simp, by simp⟩
  have hparts : ∀ c ∈ cs, (run c).parts = P := by
    intro c hcm
    obtain ⟨i, hi, rfl⟩ := List.getElem_of_mem hcm
    obtain ⟨h, E, d, e1, e2, e3⟩ := hget i cs[i] (by simp)
    exact (hc i cs[i] h E d (by simp) e1 e2 e3).parts
  have hr : run (.node (.op g red) tc cs) = ⟨P, fun w ctx q => g.exec w ctx q (cs.map fun c => (run c).exec w ctx q)⟩ := by
    rw [run_node]
    cases cs with
    | nil => exact absurd rfl hne
    | cons c cs =>
      show (⟨(run c).parts, _⟩ : Ran Row) = _
      rw [hparts c (List.mem_cons_self ..)]
      simp only [List.map_map]
      rfl
  rw [hr]
  obtain ⟨x, hx, ex⟩ := keyed_share hk hT hP (cs.map fun c i q => (run c).exec w ⟨i, T⟩ q) ds
      (by simpa using hl) (by simpa using hl') (by simp [hds]) (by
        intro i x d E e1 e2 e3
        rw [List.getElem?_map] at e1
        cases hci : cs[i]? with
        | none => rw [hci] at e1; simp at e1
        | some c =>
          rw [hci] at e1
          simp only [Option.map_some, Option.some.injEq] at e1
          subst e1
          obtain ⟨h, E2, _, f1, f2, _⟩ := hget i c hci
          have hgood := hc i c h E d hci f1 e3 e2
          have := hgood.share rfl
          rw [share_eq, hgood.parts] at this
          exact this)
      (by
        intro i x h e1 e2
        rw [List.getElem?_map] at e1
        cases hci : cs[i]? with
        | none => rw [hci] at e1; simp at e1
        | some c =>
          rw [hci] at e1
          simp only [Option.map_some, Option.some.injEq] at e1
          subst e1
          obtain ⟨h2, E2, d2, f1, f2, f3⟩ := hget i c hci
          exact (hc i c h E2 d2 hci e2 f2 f3).dist h rfl)
      (fun i q => g.exec w ⟨i, T⟩ q (cs.map fun c => (run c).exec w ⟨i, T⟩ q))
      (fun i _ q _ => by rw [List.map_map]; exact g.ok _ _ _ _)
  refine ⟨x, hx, rfl, fun _ => ex, fun h => by simp at h, ?_⟩
  · intro h' hh' i hi q hq x hx
    refine hd h' hh' _ _ _ _ (by simpa using hl) (g.ok _ _ _ _) ?_ x hx
    intro j h a e1 e2 y hy
    rw [List.getElem?_map] at e2
    cases hci : cs[j]? with
    | none => rw [hci] at e2; simp at e2
    | some c =>
      rw [hci] at e2
      simp only [Option.map_some, Option.some.injEq] at e2
      subst e2
      obtain ⟨h2, E2, d2, f1, f2, f3⟩ := hget j c hci
      exact (hc j c h E2 d2 hci e1 f2 f3).dist h rfl i hi q hq y hy

theorem good_opSingle {tc g red} {cs : List (Plan Row)} {Es : List (RowEq Row)} {E' : RowEq Row}
    (hg : Whole Es E' g) (hne : cs ≠ []) (hl : cs.length = Es.length) {w : Bool} {ds : List (List Row)}
    (hds : ds.length = cs.length)
    (hc : ∀ (i : Nat) c E d, cs[i]? = some c → Es[i]? = some E → ds[i]? = some d → Good (run c) w 1 ⟨1, none, false, E⟩ d) :
    ∃ x, g.may ds x ∧ Good (run (.node (.op g red) tc cs)) w 1 ⟨1, none, false, E'⟩ x := by
  have hget : ∀ (i : Nat) c, cs[i]? = some c → ∃ E d, Es[i]? = some E ∧ ds[i]? = some d := by
    intro i c hi
    have := (List.getElem?_eq_some_iff.mp hi).1
    exact ⟨Es[i]'(by omega), ds[i]'(by omega), by simp, by simp⟩
  have hr : run (.node (.op g red) tc cs) = ⟨1, fun w ctx q => g.exec w ctx q (cs.map fun c => (run c).exec w ctx q)⟩ := by
    rw [run_node]
    cases cs with
    | nil => exact absurd rfl hne
    | cons c cs =>
      show (⟨(run c).parts, _⟩ : Ran Row) = _
      obtain ⟨E, d, hE, hd⟩ := hget 0 c rfl
      rw [(hc 0 c E d rfl hE hd).parts]
      simp only [List.map_map]
      rfl
  rw [hr]
  have hs : SameInputs Es (cs.map fun c => (run c).exec w ⟨0, 1⟩ 0) ds := by
    apply SameInputs.of_getElem (by simpa using hl) (by omega)
    intro i E a b e1 e2 e3
    rw [List.getElem?_map] at e2
    cases hci : cs[i]? with
    | none => rw [hci] at e2; simp at e2
    | some c =>
      rw [hci] at e2
      simp only [Option.map_some, Option.some.injEq] at e2
      subst e2
      have hgood := hc i c E b hci e1 e3
      have := hgood.share rfl
      rw [share_eq, hgood.parts] at this
      simpa only [List.range_one, List.flatMap_cons, List.flatMap_nil, List.append_nil] using this
  obtain ⟨x, hx, ex⟩ := hg _ _ _ hs (g.ok w ⟨0, 1⟩ 0 _)
  refine ⟨x, hx, rfl, fun _ => ?_, fun h => by simp at h, fun h hh => by simp at hh⟩
  simpa only [List.range_one, List.flatMap_cons, List.flatMap_nil, List.append_nil, Ran.rows] using ex

theorem run_collect {m : JoinMode} (hm : m ≠ .partitioned) (s : JoinSpec Row) (tc : TaskCount) (b p : Plan Row) :
    run (.node (.join m s) tc [b, p]) = ⟨(run p).parts, collectExec s (run b) (run p)⟩ := by
  rw [run_node]
  cases m with
  | partitioned => exact absurd rfl hm
  | collect => rfl
  | nested => rfl
  | cross => rfl

theorem rows_one (r : Ran Row) (h : r.parts = 1) (w : Bool) (ctx : TaskCtx) : r.rows w ctx = r.exec w ctx 0 := by
  simp [Ran.rows, h]

theorem good_joinSafe {tc m s} {b p : Plan Row} {T P d d'} (hm : m ≠ .partitioned) (hs : s.safe = true)
    (hd : ∀ h', d' = some h' → ∃ h, d = some h ∧ ∀ ls, KeepsBuckets [h] h' (.det fun as => joinRows s ls (as.getD 0 [])))
    {w : Bool} {x y : List Row} (hb : Good (run b) w T ⟨1, none, true, .perm⟩ x)
    (hp : Good (run p) w T ⟨P, d, false, .perm⟩ y) :
    Good (run (.node (.join m s) tc [b, p])) w T ⟨P, d', false, .perm⟩ (joinRows s x y) := by
  rw [run_collect hm]
  refine ⟨hp.parts, fun _ => ?_, fun h => by simp at h, ?_⟩
  · rw [share_eq]
    show List.Perm ((List.range T).flatMap fun i => (List.range (run p).parts).flatMap fun q =>
      collectExec s (run b) (run p) w ⟨i, T⟩ q) (joinRows s x y)
    refine List.Perm.trans ?_ (joinRows_perm s (safe_unordered hs) (.refl _) (hp.share rfl))
    refine List.Perm.trans ?_ (joinRows_probe_flatMap s hs _ _ _).symm
    apply flatMap_perm_congr
    intro i hi
    refine List.Perm.trans ?_ (joinRows_probe_flatMap s hs _ _ _).symm
    apply flatMap_perm_congr
    intro q _
    unfold collectExec
    rw [if_pos hs]
    refine joinRows_perm s (safe_unordered hs) ?_ (.refl _)
    have := hb.copy rfl i (List.mem_range.mp hi)
    rw [rows_one _ hb.parts] at this
    exact this
  · intro h' hh' i hi q hq x hx
    obtain ⟨h, hh, hk⟩ := hd h' hh'
    simp only [collectExec, if_pos hs] at hx
    refine hk _ _ _ [_] _ rfl rfl ?_ x hx
    intro j h1 a e1 e2 y hy
    match j with
    | 0 =>
      simp at e1 e2; subst e1 e2
      exact hp.dist h hh i hi q hq y hy
    | j + 1 => simp at e1

theorem range_flatMap_last {α} (n : Nat) (x : List α) (hn : 0 < n) :
    ((List.range n).flatMap fun q => if q + 1 = n then x else []) = x := by
  obtain ⟨m, rfl⟩ := Nat.exists_eq_succ_of_ne_zero (Nat.ne_of_gt hn)
  have : ∀ q ∈ List.range (m + 1), (if q + 1 = m + 1 then x else []) = if m = q then x else [] := by
    intro q _
    by_cases h : q = m
    · rw [if_pos (by omega), if_pos h.symm]
    · rw [if_neg (by omega), if_neg (fun h' => h h'.symm)]
  rw [flatMap_congr' this, range_flatMap_ite, if_pos (by omega)]

theorem good_joinSingle {tc m s} {b p : Plan Row} {P} (hP : 0 < P) (hm : m ≠ .partitioned) (hu : s.Unordered)
    {w : Bool} {x y : List Row} (hb : Good (run b) w 1 ⟨1, none, false, .perm⟩ x)
    (hp : Good (run p) w 1 ⟨P, none, false, .perm⟩ y) :
    Good (run (.node (.join m s) tc [b, p])) w 1 ⟨P, none, false, .perm⟩ (joinRows s x y) := by
  have hb' : ((run b).exec w ⟨0, 1⟩ 0).Perm x := by
    have := hb.share rfl
    simp only [List.range_one, List.flatMap_cons, List.flatMap_nil, List.append_nil] at this
    rw [rows_one _ hb.parts] at this
    exact this
  have hp' : ((run p).rows w ⟨0, 1⟩).Perm y := by
    have := hp.share rfl
    simp only [List.range_one, List.flatMap_cons, List.flatMap_nil, List.append_nil] at this
    exact this
  rw [run_collect hm]
  refine ⟨hp.parts, fun _ => ?_, fun h => by simp at h, fun h hh => by simp at hh⟩
  simp only [List.range_one, List.flatMap_cons, List.flatMap_nil, List.append_nil]
  show List.Perm ((List.range (run p).parts).flatMap fun q => collectExec s (run b) (run p) w ⟨0, 1⟩ q)
    (joinRows s x y)
  by_cases hs : s.safe = true
  · refine List.Perm.trans ?_ (joinRows_perm s hu hb' hp')
    refine List.Perm.trans (.of_eq ?_) (joinRows_probe_flatMap s hs _ _ _).symm
    apply flatMap_congr'
    intro q _
    simp only [collectExec, if_pos hs]
  · refine List.Perm.trans (.of_eq ?_) (joinRows_perm s hu hb' hp')
    have hpp : (run p).parts = P := hp.parts
    rw [← range_flatMap_last (run p).parts (joinRows s ((run b).exec w ⟨0, 1⟩ 0) ((run p).rows w ⟨0, 1⟩)) (by omega)]
    apply flatMap_congr'
    intro q _
    simp only [collectExec, if_neg hs]

theorem good_joinPart {tc s} {l r : Plan Row} {T P d'} (hT : 0 < T) (hP : 0 < P) (he : s.Equi)
    (hn : s.nullAware = none)
    (hd : ∀ h', d' = some h' → KeepsBuckets [s.lk, s.rk] h' (.det fun as => joinRows s (as.getD 0 []) (as.getD 1 [])))
    {w : Bool} {x y : List Row} (hl : Good (run l) w T ⟨P, some s.lk, false, .perm⟩ x)
    (hr : Good (run r) w T ⟨P, some s.rk, false, .perm⟩ y) :
    Good (run (.node (.join .partitioned s) tc [l, r])) w T ⟨P, d', false, .perm⟩ (joinRows s x y) := by
  obtain ⟨_, rfl, this⟩ := good_opKeyed (tc := tc) (red := none) (cs := [l, r]) (d' := d') hT hP (join_keyed s he hn) hd (by simp) rfl rfl
    (w := w) (ds := [x, y]) rfl (by
      intro i c h E d e1 e2 e3 e4
      match i with
      | 0 => simp at e1 e2 e3 e4; subst e1 e2 e3 e4; exact hl
      | 1 => simp at e1 e2 e3 e4; subst e1 e2 e3 e4; exact hr
      | i + 2 => simp at e1)
  rw [run_node] at this ⊢
  exact this

theorem good_union {tc} {cs : List (Plan Row)} {T} {E : RowEq Row} {Ps : List Nat}
    (hl : cs.length = Ps.length) {w : Bool} {ds : List (List Row)} (hds : ds.length = cs.length)
    (hc : ∀ (i : Nat) c P d, cs[i]? = some c → Ps[i]? = some P → ds[i]? = some d → Good (run c) w T ⟨P, none, false, E⟩ d) :
    Good (run (.node .union tc cs)) w T ⟨Ps.sum, none, false, E⟩ ds.flatten := by
  have hparts : cs.map (fun c => (run c).parts) = Ps := by
    apply List.ext_getElem (by simpa using hl)
    intro i h1 h2
    simp only [List.getElem_map]
    have h1' : i < cs.length := by simpa using h1
    exact (hc i cs[i] Ps[i] (ds[i]'(by omega)) (by simp) (by simp) (by simp)).parts
  have hr : run (.node .union tc cs)
      = ⟨Ps.sum, fun w ctx => unionExec w ctx (cs.map run)⟩ := by
    rw [run_node]
    show (⟨((cs.map runBoth).map (·.1.parts)).sum, fun w ctx => unionExec w ctx ((cs.map runBoth).map (·.1))⟩ : Ran Row) = _
    simp only [List.map_map]
    congr 1
    · rw [← hparts]; rfl
  rw [hr]
  refine ⟨rfl, fun _ => ?_, fun h => by simp at h, fun h hh => by simp at hh⟩
  show E.eqv ((List.range T).flatMap fun i => (List.range Ps.sum).flatMap (unionExec w ⟨i, T⟩ (cs.map run)))
    ds.flatten
  have hsum : Ps.sum = ((cs.map run).map (·.parts)).sum := by rw [← hparts, List.map_map]; rfl
  have e1 : ((List.range T).flatMap fun i => (List.range Ps.sum).flatMap (unionExec w ⟨i, T⟩ (cs.map run)))
      = (List.range T).flatMap fun i => cs.flatMap fun c => (run c).rows w ⟨i, T⟩ := by
    apply flatMap_congr'
    intro i _
    rw [hsum, unionExec_rows, List.flatMap_map]
  rw [e1]
  refine E.trans (E.ofPerm (flatMap_swap_perm _ _ _)) ?_
  have e2 : (cs.flatMap fun c => (List.range T).flatMap fun i => (run c).rows w ⟨i, T⟩)
      = (List.range cs.length).flatMap fun j => (List.range T).flatMap fun i => ((cs.map run).getD j .none).rows w ⟨i, T⟩ := by
    have : cs.map run = (List.range cs.length).map fun q => (cs.map run).getD q .none := by
      apply List.ext_getElem
      · simp
      · intro i h1 h2; simp at h1; simp [h1]
    rw [show (cs.flatMap fun c => (List.range T).flatMap fun i => (run c).rows w ⟨i, T⟩)
      = (cs.map run).flatMap fun r => (List.range T).flatMap fun i => r.rows w ⟨i, T⟩ by rw [List.flatMap_map], this, List.flatMap_map,
      ← this]
  rw [e2, flatten_eq_range ds, hds]
  apply E.flatMap
  intro j hj
  have hj := List.mem_range.mp hj
  have g1 : (cs.map run).getD j .none = run cs[j] := by simp [hj]
  have g2 : ds.getD j [] = ds[j]'(by omega) := by simp [hds, hj]
  rw [g1, g2]
  exact (hc j cs[j] (Ps[j]'(by omega)) (ds[j]'(by omega)) (by simp) (by simp) (by simp)).share rfl

theorem good_ciu {tc ws m} {cs : List (Plan Row)} {T} {E : RowEq Row} {k} {Ps : List Nat}
    (hl : cs.length = Ps.length) (hm : m.length = T) (hr : Union.RunsAll cs.length k m) {w : Bool} {ds : List (List Row)}
    (hds : ds.length = cs.length)
    (hc : ∀ (i : Nat) c P d, cs[i]? = some c → Ps[i]? = some P → ds[i]? = some d → Good (run c) w (k i) ⟨P, none, false, E⟩ d) :
    Good (run (.node (.ciu ws m) tc cs)) w T ⟨ciuParts m Ps, none, false, E⟩ ds.flatten := by
  have hparts : cs.map (fun c => (run c).parts) = Ps := by
    apply List.ext_getElem (by simpa using hl)
    intro i h1 h2
    simp only [List.getElem_map]
    have h1' : i < cs.length := by simpa using h1
    exact (hc i cs[i] Ps[i] (ds[i]'(by omega)) (by simp) (by simp) (by simp)).parts
  have hrun : run (.node (.ciu ws m) tc cs)
      = ⟨ciuParts m Ps, fun w ctx => ciuExec w (cs.map run) (m.getD ctx.index [])⟩ := by
    rw [run_node]
    show (⟨ciuParts m ((cs.map runBoth).map (·.1.parts)), fun w ctx => ciuExec w ((cs.map runBoth).map (·.1)) (m.getD ctx.index [])⟩ : Ran Row) = _
    simp only [List.map_map]
    congr 1
    · rw [← hparts]; rfl
  rw [hrun]
  refine ⟨rfl, fun _ => ?_, fun h => by simp at h, fun h hh => by simp at hh⟩
  show E.eqv ((List.range T).flatMap fun i => (List.range (ciuParts m Ps)).flatMap
    (ciuExec w (cs.map run) (m.getD i []))) ds.flatten
  have hPs : (cs.map run).map (·.parts) = Ps := by rw [← hparts, List.map_map]; rfl
  have hvalid : ∀ es ∈ m, ∀ e ∈ es, e.1 < cs.length := by
    intro es hes e he
    exact (Union.mem_childTasks.mp (hr.2.mem_iff.mp (List.mem_flatten.mpr ⟨es, hes, he⟩))).1
  have e1 : ((List.range T).flatMap fun i => (List.range (ciuParts m Ps)).flatMap
      (ciuExec w (cs.map run) (m.getD i [])))
      = m.flatten.flatMap fun e => ((cs.map run).getD e.1 .none).rows w e.2 := by
    rw [flatten_eq_range m, List.flatMap_assoc, hm]
    apply flatMap_congr'
    intro i hi
    have hi : i < m.length := by rw [hm]; exact List.mem_range.mp hi
    have hmem : m.getD i [] ∈ m := by
      have : m.getD i [] = m[i] := by simp [hi]
      rw [this]; exact List.getElem_mem _
    apply ciuExec_rows
    · intro e he; simpa using hvalid _ hmem e he
    · rw [hPs]; exact ciuParts_le hmem
  rw [e1]
  refine E.trans (E.ofPerm (hr.2.flatMap_right _)) ?_
  have e2 : (Union.childTasks cs.length k).flatMap (fun e => ((cs.map run).getD e.1 .none).rows w e.2)
      = (List.range cs.length).flatMap fun c => (List.range (k c)).flatMap fun i =>
          ((cs.map run).getD c .none).rows w ⟨i, k c⟩ := by
    unfold Union.childTasks
    rw [List.flatMap_assoc]
    apply flatMap_congr'
    intro c _
    rw [List.flatMap_map]
  rw [e2, flatten_eq_range ds, hds]
  apply E.flatMap
  intro c hc'
  have hc' := List.mem_range.mp hc'
  have g1 : (cs.map run).getD c .none = run cs[c] := by simp [hc']
  have g2 : ds.getD c [] = ds[c]'(by omega) := by simp [hds, hc']
  rw [g1, g2]
  exact (hc c cs[c] (Ps[c]'(by omega)) (ds[c]'(by omega)) (by simp) (by simp) (by simp)).share rfl

theorem good_hashRepart {tc h n o} {c : Plan Row} {T P} {E : RowEq Row} {d'} (hn : 0 < n)
    (hd : ∀ h', d' = some h' → h' = h ∧ T = 1) {w : Bool} {a : List Row} (hc : Good (run c) w T ⟨P, none, false, E⟩ a) :
    Good (run (.node (.hashRepart h n o) tc [c])) w T ⟨n, d', false, E⟩ a := by
  have hr : run (.node (.hashRepart h n o) tc [c]) = ⟨n, fun w ctx q => hashPart h n q ((run c).rows w ctx)⟩ := by
    rw [run_node]; rfl
  rw [hr]
  refine ⟨rfl, fun _ => ?_, fun h => by simp at h, ?_⟩
  · refine E.trans (E.flatMap ?_) (hc.share rfl)
    intro i _
    exact E.ofPerm (hashPart_perm h n hn _)
  · intro h' hh' i hi q hq x hx
    obtain ⟨rfl, rfl⟩ := hd h' hh'
    have := (mem_hashPart.mp hx).2
    simp only [Nat.one_mul]
    have : i = 0 := by omega
    subst this
    simpa using (mem_hashPart.mp hx).2

theorem good_otherRepart {tc n deal} {c : Plan Row} {T P} {E : RowEq Row} (hdeal : DealOk n deal)
    {w : Bool} {a : List Row} (hc : Good (run c) w T ⟨P, none, false, E⟩ a) :
    Good (run (.node (.otherRepart n deal) tc [c])) w T ⟨n, none, false, E⟩ a := by
  have hr : run (.node (.otherRepart n deal) tc [c])
      = ⟨n, fun w ctx q => deal ((List.range (run c).parts).map ((run c).exec w ctx)) q⟩ := by
    rw [run_node]; rfl
  rw [hr]
  refine ⟨rfl, fun _ => ?_, fun h => by simp at h, fun h hh => by simp at hh⟩
  refine E.trans (E.flatMap ?_) (hc.share rfl)
  intro i _
  have := hdeal ((List.range (run c).parts).map ((run c).exec w ⟨i, T⟩))
  rw [← List.flatMap_def] at this
  exact E.ofPerm this

theorem good_one {p c : Plan Row} {T P rep} {E : RowEq Row} {w : Bool}
    (hr : run p = ⟨1, fun w ctx q => if q = 0 then (run c).rows w ctx else []⟩) {a : List Row}
    (hc : Good (run c) w T ⟨P, none, rep, E⟩ a) :
    Good (run p) w T ⟨1, none, rep, E⟩ a := by
  have hrows : ∀ ctx, (run p).rows w ctx = (run c).rows w ctx := by
    intro ctx
    rw [hr]
    simp [Ran.rows]
  refine ⟨by rw [hr], fun h => ?_, fun h i hi => ?_, fun h hh => by simp at hh⟩
  · have := hc.share h
    simpa only [hrows] using this
  · rw [hrows]
    exact hc.copy h i hi

theorem good_broadcast {tc} {c : Plan Row} {T P rep} {E : RowEq Row} {w : Bool} {a : List Row}
    (hc : Good (run c) w T ⟨P, none, rep, E⟩ a) :
    Good (run (.node (.broadcast 1) tc [c])) w T ⟨P, none, rep, E⟩ a := by
  have hr : run (.node (.broadcast 1) tc [c]) = ⟨(run c).parts * 1, fun w ctx q => (run c).exec w ctx (q % (run c).parts)⟩ := by
    rw [run_node]; rfl
  have hrows : ∀ ctx, (run (.node (.broadcast 1) tc [c])).rows w ctx = (run c).rows w ctx := by
    intro ctx
    rw [hr]
    simp only [Ran.rows, Nat.mul_one]
    apply flatMap_congr'
    intro q hq
    rw [Nat.mod_eq_of_lt (List.mem_range.mp hq)]
  refine ⟨by rw [hr]; simpa using hc.parts, fun h => ?_, fun h i hi => ?_, fun h hh => by simp at hh⟩
  · have := hc.share h
    simpa only [hrows] using this
  · rw [hrows]
    exact hc.copy h i hi

/-- The input of a boundary, as the workers execute it. -/
theorem bare_eq {ph : Bool} {T : Nat} {c : Plan Row} {I : Info Row} (h : Legal ph T (strip c) I) :
    (runBoth c).2 = run (strip c) := by
  apply runBoth_strip
  intro hk hcs
  cases c with
  | node k tc cs =>
    simp only [Plan.children] at hcs
    subst hcs
    simp only [strip] at h
    simp only [Plan.kind] at hk
    generalize hp : Plan.node k tc [] = p at h
    induction h with
    | leaf => cases hp; simp [Kind.isHead] at hk
    | distLeaf => cases hp; simp [Kind.isHead] at hk
    | opKeyed => cases hp; simp [Kind.isHead] at hk
    | opSingle => cases hp; simp [Kind.isHead] at hk
    | union => cases hp; simp [Kind.isHead] at hk
    | ciu => cases hp; simp [Kind.isHead] at hk
    | forget _ ih => exact ih hp
    | trivial _ ih => exact ih hp
    | repFlip _ ih => exact ih hp
    | coarsen _ _ ih => exact ih hp
    | _ => cases hp

theorem good_shuffle {tc h p N num} {c : Plan Row} {T P} {E : RowEq Row} (hT : 0 < T) (hp : 0 < p)
    (hbare : (runBoth c).2 = run (strip c)) {a : List Row} (hc : Good (run (strip c)) true N ⟨P, none, false, E⟩ a)
    (w : Bool) :
    Good (run (.node (.shuffle h p N num) tc [c])) w T ⟨p, some h, false, E⟩ a := by
  have hr : run (.node (.shuffle h p N num) tc [c]) = ⟨p, fun _ ctx q => shuffleExec h p N (run (strip c)) ctx q⟩ := by
    rw [run_node, ← hbare]; rfl
  have hex : ∀ i q, shuffleExec h p N (run (strip c)) ⟨i, T⟩ q
      = shuffleDelivered ⟨p, N⟩ T id h (fun j => (run (strip c)).rows true ⟨j, N⟩) i q := by
    intro i q
    unfold shuffleExec shuffleDelivered hashPart
    apply flatMap_congr'
    intro r _
    apply List.filter_congr
    intro x _
    rfl
  rw [hr]
  refine ⟨rfl, fun _ => ?_, fun h => by simp at h, ?_⟩
  · refine E.trans (E.ofPerm ?_) (hc.share rfl)
    exact (C03_shuffle_exactly_once_colocated p N T hp hT id h (fun j => (run (strip c)).rows true ⟨j, N⟩)
      (fun i q => shuffleExec h p N (run (strip c)) ⟨i, T⟩ q)
      (fun i _ q _ => List.Perm.of_eq (hex i q))).2.1
  · intro h' hh' i hi q hq x hx
    simp only [Option.some.injEq] at hh'
    subst hh'
    simp only [shuffleExec, FanExec.execute, List.flatMap_map, List.mem_flatMap, mem_hashPart] at hx
    obtain ⟨_, _, _, hx⟩ := hx
    simp only [FanExec.headPartitions] at hx
    show h x % (T * p) = i * p + q
    rw [Nat.mul_comm T p, hx, Nat.mul_comm]

theorem good_netCoalesce {tc p N num} {c : Plan Row} {T P} {E : RowEq Row} (hT : 0 < T)
    (hp : p = P * max (divCeil N T) 1)
    (hbare : (runBoth c).2 = run (strip c)) {a : List Row} (hc : Good (run (strip c)) true N ⟨P, none, false, E⟩ a)
    (w : Bool) :
    Good (run (.node (.netCoalesce p N num) tc [c])) w T ⟨p, none, false, E⟩ a := by
  have hr : run (.node (.netCoalesce p N num) tc [c]) = ⟨p, fun _ ctx q => netCoalesceExec p N (run (strip c)) ctx q⟩ := by
    rw [run_node, ← hbare]; rfl
  rw [hr]
  refine ⟨rfl, fun _ => ?_, fun h => by simp at h, fun h hh => by simp at hh⟩
  refine E.trans (E.ofEq ?_) (hc.share rfl)
  obtain ⟨e, he, _, hall⟩ := C01_coalesce_exactly_once P N T hT
  obtain rfl : e = ⟨p, N⟩ := by
    simp [CoalesceExec.tryNew, Nat.ne_of_gt hT] at he; rw [← he, hp]
  have key : ∀ i q, netCoalesceExec p N (run (strip c)) ⟨i, T⟩ q
      = (readsOf ((CoalesceExec.mk p N).execute ⟨i, T⟩ q)).flatMap fun x => (run (strip c)).exec true ⟨x.1, N⟩ x.2 := by
    intro i q
    unfold netCoalesceExec readsOf
    cases (CoalesceExec.mk p N).execute ⟨i, T⟩ q with
    | error => rfl
    | ok pulls => simp only [List.flatMap_map]
  have e1 : ((List.range T).flatMap fun i => (Ran.mk p fun _ ctx q => netCoalesceExec p N (run (strip c)) ctx q).rows w ⟨i, T⟩)
      = (allReads T p (CoalesceExec.mk p N).execute).flatMap fun x => (run (strip c)).exec true ⟨x.1, N⟩ x.2 := by
    unfold allReads Ran.rows
    simp only [List.flatMap_assoc, key]
  rw [e1, hall, share_eq, hc.parts]
  unfold allPairs
  rw [List.flatMap_assoc]
  apply flatMap_congr'
  intro i _
  rw [List.flatMap_map]

theorem good_netBroadcast {tc p N num} {c : Plan Row} {T} {E : RowEq Row} (hp : 0 < p)
    (hbare : (runBoth c).2 = run (strip c)) {a : List Row} (hc : Good (run (strip c)) true N ⟨p, none, false, E⟩ a)
    (w : Bool) :
    Good (run (.node (.netBroadcast p N num) tc [c])) w T ⟨p, none, true, E⟩ a := by
  have hr : run (.node (.netBroadcast p N num) tc [c]) = ⟨p, fun _ ctx q => netBroadcastExec p N (run (strip c)) ctx q⟩ := by
    rw [run_node, ← hbare]; rfl
  rw [hr]
  refine ⟨rfl, fun h => by simp at h, fun _ i hi => ?_, fun h hh => by simp at hh⟩
  refine E.trans (E.ofPerm ?_) (hc.share rfl)
  have h4 := (C04_broadcast_full_copy p N T hp).2 i hi
  have h5 := h4.flatMap_right fun x => (run (strip c)).exec true ⟨x.1, N⟩ x.2
  have hpp : (run (strip c)).parts = p := hc.parts
  have e1 : (Ran.mk p fun _ ctx q => netBroadcastExec p N (run (strip c)) ctx q).rows w ⟨i, T⟩
      = ((List.range p).flatMap fun q => ((FanExec.mk p N).execute ⟨i, T⟩ q).map fun r =>
          (r.task, r.partition % p)).flatMap fun x => (run (strip c)).exec true ⟨x.1, N⟩ x.2 := by
    unfold Ran.rows netBroadcastExec
    rw [List.flatMap_assoc]
    apply flatMap_congr'
    intro q _
    simp only [List.flatMap_map, hpp]
  rw [e1]
  refine h5.trans (List.Perm.of_eq ?_)
  rw [share_eq, hpp]
  unfold allPairs
  rw [List.flatMap_assoc]
  apply flatMap_congr'
  intro i _
  rw [List.flatMap_map]

theorem good_fetch {tc k g} {c : Plan Row} {P} {E E' : RowEq Row} (hk : k = .coalesce (some g) ∨ ∃ le, k = .spm (some g) le)
    (hg : Whole [E] E' g) {w : Bool} {a : List Row} (hc : Good (run c) w 1 ⟨P, none, false, E⟩ a) :
    ∃ x, g.may [a] x ∧ Good (run (.node k tc [c])) w 1 ⟨1, none, false, E'⟩ x := by
  have hr : run (.node k tc [c]) = ⟨1, fun w ctx q => if q = 0 then g.exec w ctx 0 [(run c).rows w ctx] else []⟩ := by
    rcases hk with rfl | ⟨le, rfl⟩ <;> (rw [run_node]; rfl)
  have hs : E.eqv ((run c).rows w ⟨0, 1⟩) a := by
    have := hc.share rfl
    simpa only [List.range_one, List.flatMap_cons, List.flatMap_nil, List.append_nil] using this
  obtain ⟨x, hx, ex⟩ := hg [_] [_] _ ⟨hs, trivial⟩ (g.ok w ⟨0, 1⟩ 0 _)
  rw [hr]
  refine ⟨x, hx, rfl, fun _ => ?_, fun h => by simp at h, fun h hh => by simp at hh⟩
  simpa only [List.range_one, List.flatMap_cons, List.flatMap_nil, List.append_nil, Ran.rows, if_pos] using ex

/-- Executing a legal plan with its tasks produces one of its answers. -/
theorem Legal.good {ph : Bool} {T : Nat} {p : Plan Row} {I : Info Row} (h : Legal ph T p I) (hT : 0 < T) :
    ∀ w, ∃ d, Answer p d ∧ Good (run p) w T I d := by
  induction h with
  | leaf => exact fun w => ⟨_, answer_node.mpr ⟨[], ⟨rfl, by simp⟩, rfl⟩, good_leaf _ _ w⟩
  | distLeaf _ h1 h2 h3 h4 => exact fun w => ⟨_, answer_node.mpr ⟨[], ⟨rfl, by simp⟩, rfl⟩, good_distLeaf hT h1 h2 h3 h4 w⟩
  | opLocal hg _ hd _ ih =>
    intro w
    obtain ⟨a, ha, hgood⟩ := ih hT w
    obtain ⟨x, hx, h⟩ := good_opLocal hg hd hgood
    exact ⟨x, answer_one.mpr ⟨a, ha, hx⟩, h⟩
  | @opKeyed tc g red cs T P hs Es d' E' hk hred hd hne hl hl' hcs ih =>
    intro w
    have hP : 0 < P := by
      have h0 : 0 < cs.length := List.length_pos_iff.mpr hne
      exact (hcs 0 cs[0] hs[0] Es[0] (by simp) (by simp) (by simp)).pos
    obtain ⟨ds, hds, hall⟩ := exists_list (P := fun i c d => Answer c d ∧ ∀ h E, hs[i]? = some h → Es[i]? = some E →
        Good (run c) w T ⟨P, some h, false, E⟩ d) cs (by
      intro i c e
      have := (List.getElem?_eq_some_iff.mp e).1
      obtain ⟨d, h1, h2⟩ := ih i c (hs[i]'(by omega)) (Es[i]'(by omega)) e (by simp) (by simp) hT w
      refine ⟨d, h1, ?_⟩
      intro h E e1 e2
      rw [List.getElem?_eq_some_iff] at e1 e2
      obtain ⟨_, rfl⟩ := e1
      obtain ⟨_, rfl⟩ := e2
      exact h2)
    obtain ⟨x, hx, h⟩ := good_opKeyed (tc := tc) (red := red) hT hP hk hd hne hl hl' hds
      fun i c h E d e1 e2 e3 e4 => (hall i c d e1 e4).2 h E e2 e3
    exact ⟨x, answer_node.mpr ⟨ds, ⟨hds, fun i c d e1 e2 => (hall i c d e1 e2).1⟩, hx⟩, h⟩
  | @opSingle tc g red cs Es E' hg _ hne hl _ ih =>
    intro w
    obtain ⟨ds, hds, hall⟩ := exists_list (P := fun i c d => Answer c d ∧ ∀ E, Es[i]? = some E →
        Good (run c) w 1 ⟨1, none, false, E⟩ d) cs (by
      intro i c e
      have := (List.getElem?_eq_some_iff.mp e).1
      obtain ⟨d, h1, h2⟩ := ih i c (Es[i]'(by omega)) e (by simp) hT w
      refine ⟨d, h1, ?_⟩
      intro E e1
      rw [List.getElem?_eq_some_iff] at e1
      obtain ⟨_, rfl⟩ := e1
      exact h2)
    obtain ⟨x, hx, h⟩ := good_opSingle (tc := tc) (red := red) hg hne hl hds
      fun i c E d e1 e2 e3 => (hall i c d e1 e3).2 E e2
    exact ⟨x, answer_node.mpr ⟨ds, ⟨hds, fun i c d e1 e2 => (hall i c d e1 e2).1⟩, hx⟩, h⟩
  | joinSafe hm hs hd _ _ ihb ihp =>
    intro w
    obtain ⟨x, hx, hb⟩ := ihb hT w
    obtain ⟨y, hy, hp⟩ := ihp hT w
    exact ⟨_, answer_two.mpr ⟨x, y, hx, hy, rfl⟩, good_joinSafe hm hs hd hb hp⟩
  | joinSingle hm hu _ hp ihb ihp =>
    intro w
    obtain ⟨x, hx, hb⟩ := ihb hT w
    obtain ⟨y, hy, hp'⟩ := ihp hT w
    exact ⟨_, answer_two.mpr ⟨x, y, hx, hy, rfl⟩, good_joinSingle hp.pos hm hu hb hp'⟩
  | joinPart he hn hd hl _ ihl ihr =>
    intro w
    obtain ⟨x, hx, hl'⟩ := ihl hT w
    obtain ⟨y, hy, hr'⟩ := ihr hT w
    exact ⟨_, answer_two.mpr ⟨x, y, hx, hy, rfl⟩, good_joinPart hT hl.pos he hn hd hl' hr'⟩
  | @union tc cs T E Ps _ hl _ ih =>
    intro w
    obtain ⟨ds, hds, hall⟩ := exists_list (P := fun i c d => Answer c d ∧ ∀ P, Ps[i]? = some P →
        Good (run c) w T ⟨P, none, false, E⟩ d) cs (by
      intro i c e
      have := (List.getElem?_eq_some_iff.mp e).1
      obtain ⟨d, h1, h2⟩ := ih i c (Ps[i]'(by omega)) e (by simp) hT w
      refine ⟨d, h1, ?_⟩
      intro P e1
      rw [List.getElem?_eq_some_iff] at e1
      obtain ⟨_, rfl⟩ := e1
      exact h2)
    exact ⟨_, answer_node.mpr ⟨ds, ⟨hds, fun i c d e1 e2 => (hall i c d e1 e2).1⟩, rfl⟩,
      good_union hl hds fun i c P d e1 e2 e3 => (hall i c d e1 e3).2 P e2⟩
  | @ciu tc ws m cs T E k Ps _ hl hm hr _ _ ih =>
    intro w
    obtain ⟨ds, hds, hall⟩ := exists_list (P := fun i c d => Answer c d ∧ ∀ P, Ps[i]? = some P →
        Good (run c) w (k i) ⟨P, none, false, E⟩ d) cs (by
      intro i c e
      have := (List.getElem?_eq_some_iff.mp e).1
      obtain ⟨d, h1, h2⟩ := ih i c (Ps[i]'(by omega)) e (by simp) (hr.1 i this) w
      refine ⟨d, h1, ?_⟩
      intro P e1
      rw [List.getElem?_eq_some_iff] at e1
      obtain ⟨_, rfl⟩ := e1
      exact h2)
    exact ⟨_, answer_node.mpr ⟨ds, ⟨hds, fun i c d e1 e2 => (hall i c d e1 e2).1⟩, rfl⟩,
      good_ciu hl hm hr hds fun i c P d e1 e2 e3 => (hall i c d e1 e3).2 P e2⟩
  | hashRepart hn hd _ ih =>
    intro w
    obtain ⟨a, ha, h⟩ := ih hT w
    exact ⟨a, answer_one.mpr ⟨a, ha, rfl⟩, good_hashRepart hn hd h⟩
  | otherRepart _ hd _ ih =>
    intro w
    obtain ⟨a, ha, h⟩ := ih hT w
    exact ⟨a, answer_one.mpr ⟨a, ha, rfl⟩, good_otherRepart hd h⟩
  | coalesce _ ih =>
    intro w
    obtain ⟨a, ha, h⟩ := ih hT w
    exact ⟨a, answer_one.mpr ⟨a, ha, rfl⟩, good_one (by rw [run_node]; rfl) h⟩
  | spm _ ih =>
    intro w
    obtain ⟨a, ha, h⟩ := ih hT w
    exact ⟨a, answer_one.mpr ⟨a, ha, rfl⟩, good_one (by rw [run_node]; rfl) h⟩
  | fetch hk hg _ ih =>
    intro w
    obtain ⟨a, ha, h⟩ := ih hT w
    obtain ⟨x, hx, h'⟩ := good_fetch hk hg h
    refine ⟨x, answer_one.mpr ⟨a, ha, ?_⟩, h'⟩
    rcases hk with rfl | ⟨le, rfl⟩ <;> exact hx
  | broadcast _ ih =>
    intro w
    obtain ⟨a, ha, h⟩ := ih hT w
    exact ⟨a, answer_one.mpr ⟨a, ha, rfl⟩, good_broadcast h⟩
  | shuffle hp hN _ _ hc ih =>
    intro w
    obtain ⟨a, ha, h⟩ := ih hN true
    exact ⟨a, answer_one.mpr ⟨a, answer_strip _ ▸ ha, rfl⟩, good_shuffle hT hp (bare_eq hc) h w⟩
  | netCoalesce hN hp _ _ hc ih =>
    intro w
    obtain ⟨a, ha, h⟩ := ih hN true
    exact ⟨a, answer_one.mpr ⟨a, answer_strip _ ▸ ha, rfl⟩, good_netCoalesce hT hp (bare_eq hc) h w⟩
  | netBroadcast hN _ hc ih =>
    intro w
    obtain ⟨a, ha, h⟩ := ih hN true
    exact ⟨a, answer_one.mpr ⟨a, answer_strip _ ▸ ha, rfl⟩, good_netBroadcast hc.pos (bare_eq hc) h w⟩
  | forget _ ih =>
    intro w
    obtain ⟨a, ha, h⟩ := ih hT w
    exact ⟨a, ha, h.parts, h.share, h.copy, fun h hh => by simp at hh⟩
  | trivial _ ih =>
    intro w
    obtain ⟨a, ha, h⟩ := ih hT w
    refine ⟨a, ha, h.parts, h.share, h.copy, ?_⟩
    intro h hh i hi q hq x hx
    simp only [Nat.mul_one] at hq ⊢
    omega
  | @repFlip p P d rep rep' E _ ih =>
    intro w
    obtain ⟨a, ha, hg⟩ := ih hT w
    have h1 : E.eqv ((run p).rows w ⟨0, 1⟩) a := by
      cases rep with
      | false =>
        have := hg.share rfl
        simpa only [List.range_one, List.flatMap_cons, List.flatMap_nil, List.append_nil] using this
      | true => exact hg.copy rfl 0 Nat.one_pos
    refine ⟨a, ha, hg.parts, fun _ => ?_, fun _ i hi => ?_, fun h hh => by simp at hh⟩
    · simpa only [List.range_one, List.flatMap_cons, List.flatMap_nil, List.append_nil] using h1
    · have : i = 0 := by omega
      subst this
      exact h1
  | coarsen hE _ ih =>
    intro w
    obtain ⟨a, ha, h⟩ := ih hT w
    exact ⟨a, ha, h.parts, fun h' => hE _ _ (h.share h'), fun h' i hi => hE _ _ (h.copy h' i hi), h.dist⟩

/-! ### Plans with one answer -/

mutual
theorem Det.unique : ∀ {p : Plan Row} {d d'}, Det p → Answer p d → Answer p d' → d = d'
  | .node k tc cs, d, d', h, h1, h2 => by
    rw [Det] at h
    rw [Answer] at h1 h2
    obtain ⟨ds, a1, e1⟩ := h1
    obtain ⟨ds', a2, e2⟩ := h2
    obtain rfl := DetAll.unique h.2 a1 a2
    cases k with
    | op g red => exact h.1 _ _ _ e1 e2
    | coalesce f => cases f with
      | none => exact Eq.trans e1 (Eq.symm e2)
      | some g => exact h.1 _ _ _ e1 e2
    | spm f => cases f with
      | none => exact Eq.trans e1 (Eq.symm e2)
      | some g => exact h.1 _ _ _ e1 e2
    | _ => exact Eq.trans e1 (Eq.symm e2)
theorem DetAll.unique : ∀ {cs : List (Plan Row)} {ds ds'}, DetAll cs → AnswerAll cs ds → AnswerAll cs ds' → ds = ds'
  | [], ds, ds', _, h1, h2 => by rw [AnswerAll] at h1 h2; rw [h1, h2]
  | c :: cs, ds, ds', h, h1, h2 => by
    rw [DetAll] at h
    rw [AnswerAll] at h1 h2
    obtain ⟨d, r, rfl, a1, b1⟩ := h1
    obtain ⟨d', r', rfl, a2, b2⟩ := h2
    rw [Det.unique h.1 a1 a2, DetAll.unique h.2 b1 b2]
end

theorem Det.oneAnswer {p : Plan Row} (h : Det p) : OneAnswer p := fun _ _ h1 h2 => .of_eq (h.unique h1 h2)

theorem Op.det_det (f : List (List Row) → List Row) : (Op.det f).Det := fun _ _ _ h1 h2 => Eq.trans h1 (Eq.symm h2)

/-! ### Running in the head stage -/

/-- What one task returns. -/
theorem Legal.rows_one {ph : Bool} {p : Plan Row} {P d E} (h : Legal ph 1 p ⟨P, d, false, E⟩) (w : Bool) :
    (run p).parts = P ∧ ∃ d, Answer p d ∧ E.eqv ((run p).rows w ⟨0, 1⟩) d := by
  obtain ⟨d, hd, g⟩ := h.good Nat.one_pos w
  refine ⟨g.parts, d, hd, ?_⟩
  have := g.share rfl
  simpa only [List.range_one, List.flatMap_cons, List.flatMap_nil, List.append_nil] using this

theorem distributed_eq {p : Plan Row} (h : (run p).parts = 1) : (run p).rows false ⟨0, 1⟩ = distributed p := by
  simp only [Ran.rows, h, List.range_one, List.flatMap_cons, List.flatMap_nil, List.append_nil]
  rfl

/-- What the coordinator returns. -/
theorem Legal.distributed {ph : Bool} {p : Plan Row} {d E} (h : Legal ph 1 p ⟨1, d, false, E⟩) :
    p.parts = 1 ∧ ∃ d, Answer p d ∧ E.eqv (Tree.distributed p) d := by
  obtain ⟨h1, d, hd, e⟩ := h.rows_one false
  rw [distributed_eq h1] at e
  exact ⟨h1, d, hd, e⟩

end DD.Tree
