/-
Samplers below the heads of stages change neither what a plan means nor its shape.
-/
import Verif.Model.Dynamic
import Verif.Lemmas.PlanReduce
import Verif.Lemmas.PlanShapePrepare

namespace DD.Tree

variable {Row : Type} {env : Env Row} {D : Prop}

theorem sampleAll_eq (cs : List (Plan Row)) : sampleAll cs = cs.map sample := by
  induction cs with
  | nil => rfl
  | cons c cs ih => rw [sampleAll, ih]; rfl

theorem sample_plain {k : Kind Row} (hk : k.isNet = false) (tc : TaskCount) (cs : List (Plan Row)) :
    sample (.node k tc cs) = .node k tc (cs.map sample) := by
  rw [sample, sampleAll_eq]; simp [hk]

theorem sample_net {k : Kind Row} (hk : k.isNet = true) (tc : TaskCount) (cs : List (Plan Row)) :
    sample (.node k tc cs) = .node k tc (cs.map fun c => insertSampler (sample c)) := by
  rw [sample, sampleAll_eq]; simp [hk]

theorem sample_kind (p : Plan Row) : (sample p).kind = p.kind := by
  cases p with
  | node k tc cs => rw [sample]; rfl

theorem sample_length (p : Plan Row) : (sample p).children.length = p.children.length := by
  cases p with
  | node k tc cs => rw [sample, sampleAll_eq]; simp only [Plan.children]; split <;> simp

/-- Either nothing happens, or the only child of a head gets a sampler. -/
theorem insertSampler_cases (p : Plan Row) : insertSampler p = p
    ∨ ∃ k tc c, k.isHead = true ∧ p = .node k tc [c] ∧ insertSampler p = .node k tc [fresh samplerKind [c]] := by
  unfold insertSampler
  split
  · rename_i k tc c
    split
    · rename_i hk; exact .inr ⟨k, tc, c, hk, rfl, rfl⟩
    · exact .inl rfl
  · exact .inl rfl

theorem insertSampler_plain {p : Plan Row} (h : p.kind.isHead = false) : insertSampler p = p := by
  rcases insertSampler_cases p with e | ⟨k, tc, c, hk, rfl, _⟩
  · exact e
  · simp only [Plan.kind] at h; rw [h] at hk; cases hk

theorem insertSampler_head {k : Kind Row} (hk : k.isHead = true) (tc : TaskCount) (c : Plan Row) :
    insertSampler (.node k tc [c]) = .node k tc [fresh samplerKind [c]] := by
  simp [insertSampler, hk]

theorem insertSampler_kind (p : Plan Row) : (insertSampler p).kind = p.kind := by
  rcases insertSampler_cases p with e | ⟨k, tc, c, hk, rfl, e⟩
  · rw [e]
  · rw [e]; rfl

theorem insertSampler_length (p : Plan Row) : (insertSampler p).children.length = p.children.length := by
  rcases insertSampler_cases p with e | ⟨k, tc, c, hk, rfl, e⟩
  · rw [e]
  · rw [e]; rfl

theorem answer_sampler (c : Plan Row) : Answer (fresh samplerKind [c]) = Answer c :=
  answer_pass (fun _ _ => Iff.rfl) _ _ _

theorem answer_insertSampler (p : Plan Row) : Answer (insertSampler p) = Answer p := by
  rcases insertSampler_cases p with e | ⟨k, tc, c, hk, rfl, e⟩
  · rw [e]
  · rw [e]; exact answer_unary (answer_sampler c)

theorem answer_sample : ∀ p : Plan Row, Answer (sample p) = Answer p
  | .node k tc cs => by
    have ih : ∀ c ∈ cs, Answer (sample c) = Answer c := fun c hc => by
      have : sizeOf c < sizeOf cs := List.sizeOf_lt_of_mem hc
      exact answer_sample c
    cases hk : k.isNet with
    | true =>
      rw [sample_net hk]
      refine answer_congr (by simp) fun i c' x1 c x2 => ?_
      obtain ⟨c0, y1, rfl⟩ := map_get (f := fun c => insertSampler (sample c)) x1
      rw [x2] at y1; cases y1
      simp only [answer_insertSampler, ih c (List.mem_of_getElem? x2)]
    | false =>
      rw [sample_plain hk]
      refine answer_congr (by simp) fun i c' x1 c x2 => ?_
      obtain ⟨c0, y1, rfl⟩ := map_get x1
      rw [x2] at y1; cases y1
      exact ih c (List.mem_of_getElem? x2)
termination_by p => sizeOf p

theorem sampler_hom (E : RowEq Row) : Hom E E (.det fun ds : List (List Row) => ds.getD 0 []) :=
  HomFn.hom ⟨E.refl _, fun _ _ => E.refl _, fun _ _ h => h⟩

theorem Legal.sampler {ph : Bool} {T P : Nat} {c : Plan Row} {E : RowEq Row} (h : Legal ph T c ⟨P, none, false, E⟩) :
    Legal ph T (fresh samplerKind [c]) ⟨P, none, false, E⟩ :=
  .opLocal (sampler_hom E) (by intro _ h; cases h) (by simp) h

theorem Legal.sample {ph : Bool} {T : Nat} {p : Plan Row} {I : Info Row} (h : Legal ph T p I) (hph : ph = true) :
    Legal ph T (Tree.sample p) I := by
  induction h with
  | leaf hne => rw [sample_plain rfl]; exact .leaf hne
  | distLeaf h0 h1 h2 h3 h4 => rw [sample_plain rfl]; exact .distLeaf h0 h1 h2 h3 h4
  | opLocal hg hr hd _ ih => rw [sample_plain rfl]; exact .opLocal hg hr hd ih
  | @opKeyed tc g red cs T P hs Es d' E' hk hred hd hne hl hl' hcs ih =>
    rw [sample_plain rfl]
    refine .opKeyed hk hred hd (by simpa using hne) (by simpa using hl) (by simpa using hl') ?_
    intro i c' h E e1 e2 e3
    obtain ⟨c, e, rfl⟩ := map_get e1
    exact ih i c h E e e2 e3
  | @opSingle tc g red cs Es E' hg hred hne hl hcs ih =>
    rw [sample_plain rfl]
    refine .opSingle hg hred (by simpa using hne) (by simpa using hl) ?_
    intro i c' E e1 e2
    obtain ⟨c, e, rfl⟩ := map_get e1
    exact ih i c E e e2
  | joinSafe hm hs hd _ _ ihb ihp => rw [sample_plain rfl]; exact .joinSafe hm hs hd ihb ihp
  | joinSingle hm hu _ _ ihb ihp => rw [sample_plain rfl]; exact .joinSingle hm hu ihb ihp
  | joinPart he hn hd _ _ ihl ihr => rw [sample_plain rfl]; exact .joinPart he hn hd ihl ihr
  | @union tc cs T E Ps hne hl hcs ih =>
    rw [sample_plain rfl]
    refine .union (by simpa using hne) (by simpa using hl) ?_
    intro i c' P e1 e2
    obtain ⟨c, e, rfl⟩ := map_get e1
    exact ih i c P e e2
  | @ciu tc ws m cs T E k Ps hne hl hm hr ho hcs ih =>
    rw [sample_plain rfl]
    refine .ciu (k := k) (by simpa using hne) (by simpa using hl) hm (by simpa using hr) ho ?_
    intro i c' P e1 e2
    obtain ⟨c, e, rfl⟩ := map_get e1
    exact ih i c P e e2
  | hashRepart hn hd _ ih => rw [sample_plain rfl]; exact .hashRepart hn hd ih
  | otherRepart hn hd _ ih => rw [sample_plain rfl]; exact .otherRepart hn hd ih
  | coalesce _ ih => rw [sample_plain rfl]; exact .coalesce ih
  | spm _ ih => rw [sample_plain rfl]; exact .spm ih
  | fetch hk hg _ ih => rw [sample_plain (by rcases hk with rfl | ⟨le, rfl⟩ <;> rfl)]; exact .fetch hk hg ih
  | broadcast _ ih => rw [sample_plain rfl]; exact .broadcast ih
  | @shuffle tc h p N num c T P E hp hN hh hpos hc ih =>
    obtain ⟨o, tc', x, rfl⟩ := hh hph
    rw [sample_net rfl]
    simp only [List.map_cons, List.map_nil]
    rw [sample_plain rfl]
    simp only [List.map_cons, List.map_nil]
    rw [insertSampler_head rfl]
    refine .shuffle (P := P) hp hN (fun _ => ⟨_, _, _, rfl⟩) ⟨hpos.1, fun _ => rfl⟩ ?_
    exact Legal.sampler ih
  | @netCoalesce tc p N num c T P E hN hp hh hnet hc ih =>
    rw [sample_net rfl]
    simp only [List.map_cons, List.map_nil]
    have hk : (Tree.sample c).kind = c.kind := sample_kind c
    rw [insertSampler_plain (by rw [hk]; exact hh)]
    have e1 : strip c = c := by
      rcases strip_cases c with e | ⟨e, _⟩
      · exact e
      · rw [hh] at e; cases e
    have e2 : strip (Tree.sample c) = Tree.sample c := by
      rcases strip_cases (Tree.sample c) with e | ⟨e, _⟩
      · exact e
      · rw [hk, hh] at e; cases e
    rw [e1] at ih
    exact .netCoalesce hN hp (by rw [hk]; exact hh) (by rw [hk]; exact hnet) (by rw [e2]; exact ih)
  | @netBroadcast tc p N num c T E hN hh hc ih =>
    obtain ⟨n, tc', x, rfl, hn⟩ := hh
    rw [sample_net rfl]
    simp only [List.map_cons, List.map_nil]
    rw [sample_plain rfl]
    simp only [List.map_cons, List.map_nil]
    rw [insertSampler_head rfl]
    exact .netBroadcast hN ⟨_, _, _, rfl, hn⟩ (Legal.sampler ih)
  | forget _ ih => exact .forget ih
  | trivial _ ih => exact .trivial ih
  | repFlip _ ih => exact .repFlip ih
  | coarsen hE _ ih => exact .coarsen hE ih

/-! ### Shape -/

theorem parts_sampler (c : Plan Row) : (fresh samplerKind [c]).parts = c.parts := getD_runAll [c] 0 c rfl

theorem parts_insertSampler (p : Plan Row) : (insertSampler p).parts = p.parts := by
  rcases insertSampler_cases p with e | ⟨k, tc, c, hk, rfl, e⟩
  · rw [e]
  · rw [e]
    exact parts_congr (by simp only [List.map_cons, List.map_nil, parts_sampler])

theorem parts_sample : ∀ p : Plan Row, (sample p).parts = p.parts
  | .node k tc cs => by
    have ih : ∀ c ∈ cs, (sample c).parts = c.parts := fun c hc => by
      have : sizeOf c < sizeOf cs := List.sizeOf_lt_of_mem hc
      exact parts_sample c
    cases hk : k.isNet with
    | true =>
      rw [sample_net hk]
      refine parts_congr ?_
      rw [List.map_map]
      apply List.map_congr_left
      intro c hc
      simp only [Function.comp, parts_insertSampler, ih c hc]
    | false =>
      rw [sample_plain hk]
      refine parts_congr ?_
      rw [List.map_map]
      exact List.map_congr_left fun c hc => ih c hc
termination_by p => sizeOf p

/-- Visiting a plan with samplers. -/
theorem sample_every {P Q : Nat → Plan Row → Prop}
    (hnode : ∀ t k tc cs, k.isNet = false → P t (.node k tc cs) → Q t (.node k tc (cs.map sample)))
    (hnet : ∀ t k tc cs, k.isNet = true → P t (.node k tc cs) → Q t (.node k tc (cs.map fun c => insertSampler (sample c))))
    (hhead : ∀ t k tc c, k.isHead = true → Q t (.node k tc [fresh samplerKind [c]]))
    (hsampler : ∀ t c, Q t (fresh samplerKind [c])) :
    ∀ {p : Plan Row} {T}, Every P T p → Every Q T (sample p)
  | .node k tc cs, T, h => by
    obtain ⟨h1, h2⟩ := every_node.mp h
    have hc : ∀ (i : Nat) c, cs[i]? = some c → Every Q (childCount k T i) (sample c) := by
      intro i c hc
      have : sizeOf c < sizeOf cs := List.sizeOf_lt_of_mem (List.mem_of_getElem? hc)
      exact sample_every hnode hnet hhead hsampler (h2 i c hc)
    cases hk : k.isNet with
    | false =>
      rw [sample_plain hk]
      refine every_node.mpr ⟨hnode T k tc cs hk h1, fun i x hx => ?_⟩
      obtain ⟨c, e, rfl⟩ := map_get hx
      exact hc i c e
    | true =>
      rw [sample_net hk]
      refine every_node.mpr ⟨hnet T k tc cs hk h1, fun i x hx => ?_⟩
      obtain ⟨c, e, rfl⟩ := map_get (f := fun c => insertSampler (sample c)) hx
      have hcc := hc i c e
      rcases insertSampler_cases (sample c) with e1 | ⟨k', tc', c', hk', e1, e2⟩
      · rw [e1]; exact hcc
      · rw [e2]
        refine every_node.mpr ⟨hhead _ _ _ _ hk', fun i x hx => ?_⟩
        rw [e1] at hcc
        obtain ⟨_, h4⟩ := every_node.mp hcc
        match i with
        | 0 =>
          simp only [List.getElem?_cons_zero, Option.some.injEq] at hx
          subst hx
          refine every_node.mpr ⟨hsampler _ _, fun i x hx => ?_⟩
          match i with
          | 0 =>
            simp only [List.getElem?_cons_zero, Option.some.injEq] at hx
            subst hx
            have h5 := h4 0 c' rfl
            have e3 : childCount k' (childCount k T i) 0 = childCount k T i := by
              apply childCount_same
              · cases k' <;> first | rfl | cases hk'
              · rintro ws m rfl; cases hk'
            exact h5
termination_by p => sizeOf p

theorem NodeOk.sampler {t} {c : Plan Row} : NodeOk env t (fresh samplerKind [c]) :=
  .of_plain rfl (fun _ => rfl) (fun h => by cases h) (fun _ _ e => by cases e)

theorem sample_pre {p : Plan Row} {T} (h : Every (PreOk env D) T p) : Every (PreOk env D) T (sample p) := by
  refine sample_every ?_ ?_ ?_ ?_ h
  · intro t k tc cs hk hP
    exact ⟨hP.toNodeOk.congr (by simp), .of_plain hk⟩
  · intro t k tc cs hk hP
    refine ⟨hP.toNodeOk.congr (by simp), ?_, ?_, ?_⟩
    · intro f p n i e
      obtain ⟨o, tc1, tc2, y, e2⟩ := hP.pre.1 f p n i e
      cases e2
      simp only [Plan.kind] at e
      subst e
      simp only [List.map_cons, List.map_nil]
      rw [sample_plain rfl]
      simp only [List.map_cons, List.map_nil]
      rw [insertSampler_head rfl]
      exact ⟨_, _, _, _, rfl⟩
    · intro p n i e
      obtain ⟨tc1, b, tc2, y, e2, e3⟩ := hP.pre.2.1 p n i e
      cases e2
      simp only [Plan.kind] at e
      subst e
      simp only [List.map_cons, List.map_nil]
      rw [sample_plain rfl]
      simp only [List.map_cons, List.map_nil]
      rw [insertSampler_head rfl]
      refine ⟨_, _, _, _, rfl, ?_⟩
      rw [e3]
      exact parts_congr (by simp only [List.map_cons, List.map_nil, parts_sampler, parts_sample])
    · intro p n i e
      obtain ⟨tc1, c, e2, e3, e4, e5⟩ := hP.pre.2.2 p n i e
      cases e2
      simp only [Plan.kind] at e
      subst e
      simp only [List.map_cons, List.map_nil]
      exact ⟨_, _, rfl, by rw [parts_insertSampler, parts_sample]; exact e3,
        by rw [insertSampler_kind, sample_kind]; exact e4, fun d => by rw [insertSampler_kind, sample_kind]; exact e5 d⟩
  · intro t k tc c hk
    exact .of_plain (isHead_not_net hk) (fun _ => rfl)
      (fun h => by simp only [Plan.kind] at h; rw [(pinned_head hk).1] at h; cases h)
      (fun ws m e => by simp only [Plan.kind] at e; rw [e] at hk; cases hk)
  · intro t c
    exact ⟨.sampler, .of_plain rfl⟩

/-! ### Sources do not depend on the statistics -/

theorem Src.costing {ph : Phase} {p : Plan Row} {J : SInfo Row} (cpu b) (h : Src env ph p J) :
    Src (env.costing cpu b) ph p J := by
  induction h with
  | leaf h1 h2 h3 => exact .leaf h1 h2 h3
  | opLocal h1 h2 h3 _ ih => exact .opLocal h1 h2 h3 ih
  | opKeyed h1 h2 h3 h4 h5 h6 h7 h8 _ ih => exact .opKeyed h1 h2 h3 h4 h5 h6 h7 h8 ih
  | opSingle h1 h2 h3 h4 h5 h6 _ ih => exact .opSingle h1 h2 h3 h4 h5 h6 ih
  | joinSafe h1 h2 h3 h4 h5 h6 h7 h8 _ _ ih1 ih2 => exact .joinSafe h1 h2 h3 h4 h5 h6 h7 h8 ih1 ih2
  | joinPinned h1 h2 h3 h4 h5 h6 h7 _ _ ih1 ih2 => exact .joinPinned h1 h2 h3 h4 h5 h6 h7 ih1 ih2
  | joinCollect h1 h2 h3 h4 _ _ ih1 ih2 => exact .joinCollect h1 h2 h3 h4 ih1 ih2
  | joinNested h1 h2 h3 h4 h5 h6 _ _ ih1 ih2 => exact .joinNested h1 h2 h3 h4 h5 h6 ih1 ih2
  | joinPart h1 h2 h3 h4 _ _ ih1 ih2 => exact .joinPart h1 h2 h3 h4 ih1 ih2
  | union h1 h2 _ ih => exact .union h1 h2 ih
  | ciu h1 h2 h3 _ ih => exact .ciu h1 h2 h3 ih
  | hashRepart h1 h2 _ ih => exact .hashRepart h1 h2 ih
  | otherRepart h1 h2 h3 _ ih => exact .otherRepart h1 h2 h3 ih
  | gather h1 h2 h3 h4 _ ih => exact .gather h1 h2 h3 h4 ih
  | fetch h1 h2 h3 h4 h5 _ ih => exact .fetch h1 h2 h3 h4 h5 ih
  | broadcast h1 _ ih => exact .broadcast h1 ih
  | forget _ h1 h2 h3 ih => exact .forget ih h1 h2 h3
  | coarsen h1 _ ih => exact .coarsen h1 ih

mutual
theorem normalize_costing (cpu b) : ∀ p : Plan Row, normalize (env.costing cpu b) p = normalize env p
  | .node k tc cs => by
    rw [normalize, normalize, normalizeAll_costing cpu b cs]
    rfl
theorem normalizeAll_costing (cpu b) : ∀ cs : List (Plan Row), normalizeAll (env.costing cpu b) cs = normalizeAll env cs
  | [] => by rw [normalizeAll, normalizeAll]
  | c :: cs => by rw [normalizeAll, normalizeAll, normalize_costing cpu b c, normalizeAll_costing cpu b cs]
end

theorem RootOk.costing {p : Plan Row} {J : SInfo Row} (cpu b) (h : RootOk env p J) : RootOk (env.costing cpu b) p J := by
  unfold RootOk at h ⊢
  rw [normalize_costing]; exact h

theorem EnvOk.costing (cpu b) (h : EnvOk env) : EnvOk (env.costing cpu b) := ⟨h.desired, h.maxTasks, h.factor, h.target⟩

/-- The steps of `dynamicPlan`. -/
theorem dynamic_steps {p p' : Plan Row} (hp : dynamicPlan env p = .ok p') :
    ∃ p1 p2 id, preparePlan env p = .ok p1 ∧ inject env .root p1 = .ok p2 ∧ prepare true (sample p2) 1 1 = .ok (p', id) := by
  unfold dynamicPlan at hp
  obtain ⟨p1, h1, hp⟩ := bind_ok hp
  obtain ⟨p2, h2, hp⟩ := bind_ok hp
  obtain ⟨⟨p3, id⟩, h3, hp⟩ := bind_ok hp
  cases hp
  exact ⟨p1, p2, id, h1, h2, h3⟩

theorem dynamic_src (he : EnvOk env) {p p' : Plan Row} {J : SInfo Row} (h : Src env .pre p J) (hrep : J.rep = false)
    (hroot : RootOk env p J) (hp : dynamicPlan env p = .ok p') :
    ∃ d, Legal false 1 p' ⟨1, d, false, J.eqv⟩ ∧ J.eqv.sub (Answer p') (Answer p) := by
  obtain ⟨p1, p2, id, h1, h2, h3⟩ := dynamic_steps hp
  obtain ⟨d, l, e⟩ := injected_src he h hrep hroot h1 h2
  obtain ⟨q, id', l1, l2, l3⟩ := (l.sample rfl).prepare (keep := true) Nat.one_pos 1
  rw [h3] at l1
  obtain ⟨rfl, -⟩ := Prod.mk.inj (Except.ok.inj l1)
  exact ⟨_, l2, by rw [l3, answer_sample]; exact e⟩

theorem dynamic_pre (he : EnvOk env) (hs : ScalesLeaves env) (hD : D → ScalesToSources env) {p p1 p2 : Plan Row}
    (hu : Undistributed p) (hg : D → NotDealtAndGathered p1) (h1 : preparePlan env p = .ok p1)
    (h2 : inject env .root p1 = .ok p2) : Every (PreOk env D) 1 (sample p2) :=
  sample_pre ((inject_shape he hs hD (preparePlan_plain hu h1) (fun d => ⟨hg d, fun e => by cases e⟩) h2).2 rfl)

end DD.Tree
