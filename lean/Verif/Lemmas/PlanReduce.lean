/-
`partial_reduce_below_network_shuffles` keeps legal plans legal; the meaning of a node is kept up to the
equivalence of its output.
-/
import Verif.Lemmas.PlanExec

namespace DD.Tree

variable {Row : Type}

theorem ReduceOk.coarsen {E E' : RowEq Row} {red} (hE : ∀ a b, E.eqv a b → E'.eqv a b) (h : ReduceOk E red) :
    ReduceOk E' red := by
  intro r hr
  obtain ⟨h1, h2⟩ := h r hr
  have h3 : ∀ a x, r.may [a] x → E'.eqv x a := fun a x hx => hE _ _ (h2 a x hx)
  refine ⟨⟨fun x hx => h3 _ _ hx, ?_, ?_⟩, h3⟩
  · intro a b x y hx hy
    have hz := r.ok true ⟨0, 1⟩ 0 [a ++ b]
    exact ⟨_, hz, E'.trans (E'.append (h3 _ _ hx) (h3 _ _ hy)) (E'.symm (h3 _ _ hz))⟩
  · intro a b x hab hx
    have hz := r.ok true ⟨0, 1⟩ 0 [b]
    exact ⟨_, hz, E'.trans (h3 _ _ hx) (E'.trans hab (E'.symm (h3 _ _ hz)))⟩

theorem Legal.reduceOk {ph : Bool} {T : Nat} {p : Plan Row} {I : Info Row} (h : Legal ph T p I) :
    ∀ {g red tc cs}, p = .node (.op g red) tc cs → ReduceOk I.eqv red := by
  induction h with
  | opLocal _ hr => intro g red tc cs h; cases h; exact hr
  | opKeyed _ hr => intro g red tc cs h; cases h; exact hr
  | opSingle _ hr => intro g red tc cs h; cases h; exact hr
  | fetch hk => intro g red tc cs h; rcases hk with rfl | ⟨le, rfl⟩ <;> cases h
  | forget _ ih => intro g red tc cs h; exact ih h
  | trivial _ ih => intro g red tc cs h; exact ih h
  | repFlip _ ih => intro g red tc cs h; exact ih h
  | coarsen hE _ ih => intro g red tc cs h; exact (ih h).coarsen hE
  | _ => intro g red tc cs h; cases h

theorem partialReduceAll_eq (cs : List (Plan Row)) : partialReduceAll cs = cs.map partialReduce := by
  induction cs with
  | nil => rfl
  | cons c cs ih => rw [partialReduceAll, ih]; rfl

theorem partialReduce_plain {k : Kind Row} (hk : k.isNet = false) (tc : TaskCount) (cs : List (Plan Row)) :
    partialReduce (.node k tc cs) = .node k tc (cs.map partialReduce) := by
  rw [partialReduce, partialReduceAll_eq]
  unfold reduceNode
  split
  · rename_i h _; rw [hk] at h; cases h
  · rfl

theorem partialReduce_kind (p : Plan Row) : (partialReduce p).kind = p.kind := by
  cases p with
  | node k tc cs =>
    rw [partialReduce]
    unfold reduceNode
    split <;> rfl

theorem partialReduceAll_length : ∀ cs : List (Plan Row), (partialReduceAll cs).length = cs.length
  | [] => rfl
  | _ :: cs => by simp [partialReduceAll, partialReduceAll_length cs]

theorem partialReduce_length (p : Plan Row) : (partialReduce p).children.length = p.children.length := by
  cases p with
  | node k tc cs =>
    rw [partialReduce]
    have := partialReduceAll_length cs
    unfold reduceNode
    split
    · rename_i h
      rw [h] at this
      exact this
    · exact this

theorem strip_partialReduce (c : Plan Row) : strip (partialReduce c) = partialReduce (strip c) := by
  cases c with
  | node k tc cs =>
    cases cs with
    | nil => rw [partialReduce, partialReduceAll]; cases k <;> rfl
    | cons a cs =>
      by_cases hk : k.isHead = true
      · have hn : k.isNet = false := by cases k <;> simp_all [Kind.isHead, Kind.isNet]
        rw [partialReduce_plain hn]
        simp [strip, hk]
      · have h1 : strip (.node k tc (a :: cs)) = .node k tc (a :: cs) := by simp [strip, hk]
        rw [h1]
        have h2 := partialReduce_kind (.node k tc (a :: cs))
        cases hp : partialReduce (.node k tc (a :: cs)) with
        | node k' tc' cs' =>
          rw [hp] at h2
          simp only [Plan.kind] at h2
          subst h2
          cases cs' with
          | nil => rfl
          | cons b cs' => simp [strip, hk]

/-- The rewrite of a boundary either keeps the boundary or puts the merging aggregation on its input. -/
theorem reduce_net {k : Kind Row} (tc : TaskCount) (c : Plan Row) :
    reduceNode k tc [c] = .node k tc [c] ∨ ∃ h n o rt g r ot ys,
      c = .node (.hashRepart h n o) rt [.node (.op g (some r)) ot ys]
      ∧ reduceNode k tc [c] = .node k tc [fresh (.op r none) [c]] := by
  unfold reduceNode
  split
  · rename_i h n o rt g r ot ys _ hc
    simp only [List.cons.injEq, and_true] at hc
    subst hc
    exact .inr ⟨_, _, _, _, _, _, _, _, rfl, rfl⟩
  · exact .inl rfl

theorem map_get {cs : List (Plan Row)} {f : Plan Row → Plan Row} {i : Nat} {c' : Plan Row}
    (h : (cs.map f)[i]? = some c') : ∃ c, cs[i]? = some c ∧ c' = f c := by
  rw [List.getElem?_map] at h
  cases hc : cs[i]? with
  | none => rw [hc] at h; simp at h
  | some c => rw [hc] at h; simp at h; exact ⟨c, rfl, h.symm⟩

theorem Legal.partialReduce {T : Nat} {p : Plan Row} {I : Info Row} (h : Legal false T p I) (hT : 0 < T) :
    Legal false T (Tree.partialReduce p) I ∧ I.eqv.sub (Answer (Tree.partialReduce p)) (Answer p) := by
  induction h with
  | leaf hne => rw [partialReduce_plain rfl]; exact ⟨.leaf hne, RowEq.sub_refl _ _⟩
  | distLeaf h0 h1 h2 h3 h4 => rw [partialReduce_plain rfl]; exact ⟨.distLeaf h0 h1 h2 h3 h4, RowEq.sub_refl _ _⟩
  | opLocal hg hr hd _ ih =>
    rw [partialReduce_plain rfl]
    exact ⟨.opLocal hg hr hd (ih hT).1, answer_sub1 hg.congr (ih hT).2⟩
  | @opKeyed tc g red cs T P hs Es d' E' hk hred hd hne hl hl' hcs ih =>
    rw [partialReduce_plain rfl]
    refine ⟨.opKeyed hk hred hd (by simpa using hne) (by simpa using hl) (by simpa using hl') ?_, ?_⟩
    · intro i c' h E e1 e2 e3
      obtain ⟨c, e, rfl⟩ := map_get e1
      exact (ih i c h E e e2 e3 hT).1
    · refine answer_sub hk.congr (by simp) hl' ?_
      intro i c' c E e1 e2 e3
      obtain ⟨c1, e, rfl⟩ := map_get e1
      obtain rfl : c1 = c := by rw [e] at e2; exact Option.some.inj e2
      have := (List.getElem?_eq_some_iff.mp e).1
      exact (ih i c1 (hs[i]'(by omega)) E e (by simp) e3 hT).2
  | @opSingle tc g red cs Es E' hg hred hne hl hcs ih =>
    rw [partialReduce_plain rfl]
    refine ⟨.opSingle hg hred (by simpa using hne) (by simpa using hl) ?_, ?_⟩
    · intro i c' E e1 e2
      obtain ⟨c, e, rfl⟩ := map_get e1
      exact (ih i c E e e2 hT).1
    · refine answer_sub hg (by simp) hl ?_
      intro i c' c E e1 e2 e3
      obtain ⟨c1, e, rfl⟩ := map_get e1
      obtain rfl : c1 = c := by rw [e] at e2; exact Option.some.inj e2
      exact (ih i c1 E e e3 hT).2
  | joinSafe hm hs hd _ _ ihb ihp =>
    rw [partialReduce_plain rfl]
    refine ⟨.joinSafe hm hs hd (ihb hT).1 (ihp hT).1, ?_⟩
    exact answer_sub_join (safe_unordered hs) (ihb hT).2 (ihp hT).2
  | joinSingle hm hu _ _ ihb ihp =>
    rw [partialReduce_plain rfl]
    refine ⟨.joinSingle hm hu (ihb hT).1 (ihp hT).1, ?_⟩
    exact answer_sub_join hu (ihb hT).2 (ihp hT).2
  | joinPart he hn hd _ _ ihl ihr =>
    rw [partialReduce_plain rfl]
    refine ⟨.joinPart he hn hd (ihl hT).1 (ihr hT).1, ?_⟩
    exact answer_sub_join (unordered_of_none hn) (ihl hT).2 (ihr hT).2
  | @union tc cs T E Ps hne hl hcs ih =>
    rw [partialReduce_plain rfl]
    refine ⟨.union (by simpa using hne) (by simpa using hl) ?_, ?_⟩
    · intro i c' P e1 e2
      obtain ⟨c, e, rfl⟩ := map_get e1
      exact (ih i c P e e2 hT).1
    · refine answer_sub_union (.inl rfl) (.inl rfl) (by simp) ?_
      intro i c' c e1 e2
      obtain ⟨c1, e, rfl⟩ := map_get e1
      obtain rfl : c1 = c := by rw [e] at e2; exact Option.some.inj e2
      have := (List.getElem?_eq_some_iff.mp e).1
      exact (ih i c1 (Ps[i]'(by omega)) e (by simp) hT).2
  | @ciu tc ws m cs T E k Ps hne hl hm hr ho hcs ih =>
    rw [partialReduce_plain rfl]
    refine ⟨.ciu (k := k) (by simpa using hne) (by simpa using hl) hm (by simpa using hr) ho ?_, ?_⟩
    · intro i c' P e1 e2
      obtain ⟨c, e, rfl⟩ := map_get e1
      exact (ih i c P e e2 (hr.1 i (List.getElem?_eq_some_iff.mp e).1)).1
    · refine answer_sub_union (.inr ⟨_, _, rfl⟩) (.inr ⟨_, _, rfl⟩) (by simp) ?_
      intro i c' c e1 e2
      obtain ⟨c1, e, rfl⟩ := map_get e1
      obtain rfl : c1 = c := by rw [e] at e2; exact Option.some.inj e2
      have := (List.getElem?_eq_some_iff.mp e).1
      exact (ih i c1 (Ps[i]'(by omega)) e (by simp) (hr.1 i this)).2
  | hashRepart hn hd _ ih =>
    rw [partialReduce_plain rfl]
    exact ⟨.hashRepart hn hd (ih hT).1, answer_sub_pass (fun _ _ => Iff.rfl) (fun _ _ => Iff.rfl) (ih hT).2⟩
  | otherRepart hn hd _ ih =>
    rw [partialReduce_plain rfl]
    exact ⟨.otherRepart hn hd (ih hT).1, answer_sub_pass (fun _ _ => Iff.rfl) (fun _ _ => Iff.rfl) (ih hT).2⟩
  | coalesce _ ih =>
    rw [partialReduce_plain rfl]
    exact ⟨.coalesce (ih hT).1, answer_sub_pass (fun _ _ => Iff.rfl) (fun _ _ => Iff.rfl) (ih hT).2⟩
  | spm _ ih =>
    rw [partialReduce_plain rfl]
    exact ⟨.spm (ih hT).1, answer_sub_pass (fun _ _ => Iff.rfl) (fun _ _ => Iff.rfl) (ih hT).2⟩
  | fetch hk hg _ ih =>
    rw [partialReduce_plain (by rcases hk with rfl | ⟨le, rfl⟩ <;> rfl)]
    refine ⟨.fetch hk hg (ih hT).1, answer_sub1 ?_ (ih hT).2⟩
    intro a b x e hx
    rcases hk with rfl | ⟨le, rfl⟩ <;> exact hg [a] [b] x ⟨e, True.intro⟩ hx
  | broadcast _ ih =>
    rw [partialReduce_plain rfl]
    exact ⟨.broadcast (ih hT).1, answer_sub_pass (fun _ _ => Iff.rfl) (fun _ _ => Iff.rfl) (ih hT).2⟩
  | @shuffle tc h p N num c T P E hp hN hph hpos hc ih =>
    obtain ⟨l, e⟩ := ih hN
    rw [← strip_partialReduce] at l e
    rw [answer_strip, answer_strip] at e
    rw [Tree.partialReduce, partialReduceAll, partialReduceAll]
    have hkind := partialReduce_kind c
    have hlen := partialReduce_length c
    generalize Tree.partialReduce c = c' at l e hkind hlen
    rcases reduce_net (k := .shuffle h p N num) tc c' with hr | ⟨h', n, o, rt, g, r, ot, ys, rfl, hr⟩
    · rw [hr]
      exact ⟨.shuffle hp hN (by simp) ⟨by rw [hkind]; exact hpos.1, by rw [hkind, hlen]; exact hpos.2⟩ l, answer_sub_pass (fun _ _ => Iff.rfl) (fun _ _ => Iff.rfl) e⟩
    · rw [hr]
      simp only [strip, Kind.isHead, if_true] at l
      have hn : 0 < n := hpos.1 h' n o hkind.symm
      obtain ⟨r1, r2⟩ := l.reduceOk rfl r rfl
      refine ⟨.shuffle (P := n) hp hN (by simp) ⟨by intro _ _ _ h; simp [fresh, Plan.kind] at h, fun _ => rfl⟩ ?_, ?_⟩
      · simp only [fresh, strip, Kind.isHead, Bool.false_eq_true, if_false]
        exact .opLocal r1 (by intro _ h; cases h) (by simp) (.hashRepart hn (d' := none) (by simp) l)
      · refine answer_sub_pass (fun _ _ => Iff.rfl) (fun _ _ => Iff.rfl) (RowEq.sub_trans ?_ e)
        intro x hx
        obtain ⟨a, ha, hx⟩ := answer_one.mp hx
        exact ⟨a, ha, r2 _ _ hx⟩
  | @netCoalesce tc p N num c T P E hN hp hh hnet hc ih =>
    obtain ⟨l, e⟩ := ih hN
    rw [← strip_partialReduce] at l e
    rw [answer_strip, answer_strip] at e
    rw [Tree.partialReduce, partialReduceAll, partialReduceAll]
    have hkind := partialReduce_kind c
    generalize Tree.partialReduce c = c' at l e hkind
    rcases reduce_net (k := .netCoalesce p N num) tc c' with hr | ⟨h', n, o, rt, g, r, ot, ys, rfl, hr⟩
    · rw [hr]
      exact ⟨.netCoalesce hN hp (by rw [hkind]; exact hh) (by simp) l, answer_sub_pass (fun _ _ => Iff.rfl) (fun _ _ => Iff.rfl) e⟩
    · rw [← hkind] at hh
      simp [Plan.kind, Kind.isHead] at hh
  | @netBroadcast tc p N num c T E hN hph hc ih =>
    obtain ⟨l, e⟩ := ih hN
    rw [← strip_partialReduce] at l e
    rw [answer_strip, answer_strip] at e
    rw [Tree.partialReduce, partialReduceAll, partialReduceAll]
    obtain ⟨n, tc', x, rfl, _⟩ := hph
    rw [partialReduce_plain rfl] at l e ⊢
    simp only [List.map_cons, List.map_nil] at l e ⊢
    rcases reduce_net (k := .netBroadcast p N num) tc (.node (.broadcast n) tc' [Tree.partialReduce x]) with
      hr | ⟨h', n, o, rt, g, r, ot, ys, hc', hr⟩
    · rw [hr]
      exact ⟨.netBroadcast hN ⟨n, tc', _, rfl, by simp⟩ l, answer_sub_pass (fun _ _ => Iff.rfl) (fun _ _ => Iff.rfl) e⟩
    · cases hc'
  | forget _ ih => exact ⟨.forget (ih hT).1, (ih hT).2⟩
  | trivial _ ih => exact ⟨.trivial (ih hT).1, (ih hT).2⟩
  | repFlip _ ih => exact ⟨.repFlip (ih hT).1, (ih hT).2⟩
  | coarsen hE _ ih => exact ⟨.coarsen hE (ih hT).1, RowEq.sub_mono hE (ih hT).2⟩

end DD.Tree
