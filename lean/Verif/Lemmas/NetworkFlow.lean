/-
Lemmas for C77: streams deliver what their writers computed.
-/
import Verif.Lemmas.Network

namespace DD.Net

variable {S α σ : Type} [DecidableEq S]

namespace Net
variable {n : Net S α σ}

/-- The messages of a stream that are under way. -/
def onWire (st : State S α σ) (s : S) (d : Stream) : List α :=
  ((st.wire s d.reader d.writer).filter fun x => decide (x.1 = d)).map (·.2)

/-- Where the messages of a stream are. The readers of a connection that failed have the error before them, or behind them. -/
structure Flow (n : Net S α σ) (st : State S α σ) : Prop where
  here : ∀ s r w, n.link s r w = .local → st.wire s r w = [] ∧ ∀ d, d.reader = r → d.writer = w → st.fwd s d = []
  flow : ∀ s d, n.isStream s d = true → st.gone s d = false → st.failed s d.reader d.writer = false →
    st.made s d = st.got s d ++ st.queue s d ++ onWire st s d ++ st.fwd s d ++ st.pend s d
  over : ∀ s r w, st.failed s r w = true → st.wire s r w = []
    ∧ ∀ d, d.reader = r → d.writer = w → st.done s d = true ∧ st.fwd s d = [] ∧ st.pend s d = []
  cut : ∀ s d, n.isStream s d = true → st.gone s d = false → st.failed s d.reader d.writer = true →
    ∃ x, x <+: st.made s d ∧ st.got s d ++ st.queue s d = x ++ [n.error s d.reader d.writer]
  gone : ∀ s d, st.gone s d = true → st.eof s d = true
  pre : ∀ s d, st.got s d <+: st.made s d
    ∨ (st.failed s d.reader d.writer = true ∧ ∃ x, x <+: st.made s d ∧ st.got s d = x ++ [n.error s d.reader d.writer])

theorem flow_start : Flow n n.start where
  here := by intro s r w _; exact ⟨rfl, fun _ _ _ => rfl⟩
  flow := by intro s d _ _ _; simp [start, onWire]
  over := by intro s r w h; cases h
  cut := by intro s d _ _ h; cases h
  gone := by intro s d h; cases h
  pre := by intro s d; exact Or.inl List.nil_prefix

theorem flow_receive {st : State S α σ} (h : Flow n st) (s : S) (d : Stream) (x : Option α) : Flow n (n.receive st s d x) where
  here := h.here
  flow s' d' hs' hg hf := by
    have := h.flow s' d' hs' hg hf
    unfold receive onWire
    dsimp only
    split
    · rw [this, List.append_assoc]
      rfl
    · exact this
  over s' r' w' hf := by
    obtain ⟨h1, h2⟩ := h.over s' r' w' hf
    refine ⟨h1, fun d' hr hw => ?_⟩
    obtain ⟨h3, h4, h5⟩ := h2 d' hr hw
    refine ⟨h3, h4, ?_⟩
    unfold receive
    dsimp only
    split
    · rename_i e
      rw [← e.1, h3] at e
      cases e.2.2.2
    · exact h5
  cut s' d' hs' hg hf := by
    obtain ⟨x, hx, he⟩ := h.cut s' d' hs' hg hf
    refine ⟨x, ?_, he⟩
    unfold receive
    dsimp only
    split
    · exact hx.trans (List.prefix_append _ _)
    · exact hx
  gone := h.gone
  pre s' d' := by
    have hmade : st.made s' d' <+: (n.receive st s d x).made s' d' := by
      unfold receive
      dsimp only
      split
      · exact List.prefix_append _ _
      · exact List.prefix_rfl
    rcases h.pre s' d' with h1 | ⟨hf, y, hy, he⟩
    · exact Or.inl (h1.trans hmade)
    · exact Or.inr ⟨hf, y, hy.trans hmade, he⟩

theorem flow_drop {st : State S α σ} (inv : Inv n st) (h : Flow n st) (s : S) (d : Stream) :
    Flow n (n.dropped st s d) := by
  have hgone : ∀ s' d', set st.gone s d true s' d' = true → set st.eof s d true s' d' = true := by
    intro s' d' hg
    rw [set_eq] at hg ⊢
    split
    · rfl
    · rename_i e
      rw [if_neg e] at hg
      exact h.gone s' d' hg
  have hcut : ∀ s' d', n.isStream s' d' = true → set st.gone s d true s' d' = false → st.failed s' d'.reader d'.writer = true →
      ∃ x, x <+: st.made s' d' ∧ st.got s' d' ++ set st.queue s d [] s' d' = x ++ [n.error s' d'.reader d'.writer] := by
    intro s' d' hs' hg hf
    rw [set_eq] at hg
    split at hg
    · cases hg
    · rename_i e
      rw [set_ne _ _ e]
      exact h.cut s' d' hs' hg hf
  unfold dropped
  split
  · refine ⟨h.here, fun s' d' hs' hg hf => ?_, fun s' r' w' hf => ?_, hcut, hgone, h.pre⟩
    · change set st.gone s d true s' d' = false at hg
      rw [set_eq] at hg
      split at hg
      · cases hg
      · rename_i e
        have := h.flow s' d' hs' hg hf
        unfold onWire at this ⊢
        dsimp only
        rw [set_ne _ _ e, set_ne _ _ e]
        exact this
    · obtain ⟨h1, h2⟩ := h.over s' r' w' hf
      refine ⟨h1, fun d' hr hw => ?_⟩
      obtain ⟨h3, h4, h5⟩ := h2 d' hr hw
      refine ⟨?_, h4, ?_⟩
      · change set st.done s d true s' d' = true
        rw [set_eq]
        split
        · rfl
        · exact h3
      · change set st.pend s d [] s' d' = []
        rw [set_eq]
        split
        · rfl
        · exact h5
  · rename_i q w b hl
    dsimp only
    split
    · rename_i hall
      refine ⟨fun s' r' w' hl' => ?_, fun s' d' hs' hg hfail => ?_, fun s' r' w' hf => ?_, hcut, hgone, h.pre⟩
      · obtain ⟨h1, h2⟩ := h.here s' r' w' hl'
        constructor
        · change setConn st.wire s d.reader d.writer [] s' r' w' = []
          rw [setConn_eq]
          split
          · rfl
          · exact h1
        · intro d' hr hw
          change (if s' = s ∧ d'.reader = d.reader ∧ d'.writer = d.writer then [] else st.fwd s' d') = []
          split
          · rfl
          · exact h2 d' hr hw
      · change set st.gone s d true s' d' = false at hg
        rw [set_eq] at hg
        split at hg
        · cases hg
        · rename_i e
          have hf := h.flow s' d' hs' hg hfail
          by_cases hc : s' = s ∧ d'.reader = d.reader ∧ d'.writer = d.writer
          · obtain ⟨rfl, hr, hw⟩ := hc
            have hmem := (isStream_iff.mp hs').2.2
            have he := List.all_eq_true.mp hall d' (mem_conn.mpr ⟨hmem, hr, hw⟩)
            change set st.eof s' d true s' d' = true at he
            rw [set_ne _ _ e] at he
            have ho := inv.eof s' d' he (Or.inl hg)
            rw [over_remote (q := q) (w := w) (b := b) (by rw [hr, hw]; exact hl)] at ho
            obtain ⟨h1, h2⟩ := ho.2 d' (mem_conn.mpr ⟨hmem, rfl, rfl⟩)
            have hp := inv.done s' d' h1
            unfold onWire at hf ⊢
            unfold cancel
            dsimp only
            rw [ho.1, h2, hp] at hf
            rw [set_ne _ _ e, setConn_eq, if_pos ⟨rfl, hr, hw⟩, if_pos ⟨rfl, hr, hw⟩, if_pos ⟨rfl, hr, hw⟩]
            exact hf
          · unfold onWire at hf ⊢
            unfold cancel
            dsimp only
            rw [set_ne _ _ e, setConn_eq, if_neg hc, if_neg hc, if_neg hc]
            exact hf
      · obtain ⟨h1, h2⟩ := h.over s' r' w' hf
        constructor
        · change setConn st.wire s d.reader d.writer [] s' r' w' = []
          rw [setConn_eq]
          split
          · rfl
          · exact h1
        · intro d' hr hw
          obtain ⟨h3, h4, h5⟩ := h2 d' hr hw
          refine ⟨?_, ?_, ?_⟩
          · change (if s' = s ∧ d'.reader = d.reader ∧ d'.writer = d.writer then true else st.done s' d') = true
            split
            · rfl
            · exact h3
          · change (if s' = s ∧ d'.reader = d.reader ∧ d'.writer = d.writer then [] else st.fwd s' d') = []
            split
            · rfl
            · exact h4
          · change (if s' = s ∧ d'.reader = d.reader ∧ d'.writer = d.writer then [] else st.pend s' d') = []
            split
            · rfl
            · exact h5
    · refine ⟨h.here, fun s' d' hs' hg hf => ?_, h.over, hcut, hgone, h.pre⟩
      change set st.gone s d true s' d' = false at hg
      rw [set_eq] at hg
      split at hg
      · cases hg
      · rename_i e
        have := h.flow s' d' hs' hg hf
        unfold onWire at this ⊢
        dsimp only
        rw [set_ne _ _ e]
        exact this

theorem flow_fail {st : State S α σ} (h : Flow n st) {s : S} {r w : Nat} (hf : n.mayFail st s r w = true) :
    Flow n (n.broken st s r w) := by
  obtain ⟨⟨q, v, b, hl⟩, _, hfail, _, _⟩ := mayFail_iff.mp hf
  have hset : ∀ s' r' w', ¬ (s' = s ∧ r' = r ∧ w' = w) → setConn st.failed s r w true s' r' w' = st.failed s' r' w' := by
    intro s' r' w' e
    rw [setConn_eq, if_neg e]
  have hle : ∀ s' r' w', st.failed s' r' w' = true → setConn st.failed s r w true s' r' w' = true := by
    intro s' r' w' e
    rw [setConn_eq]
    split
    · rfl
    · exact e
  refine ⟨fun s' r' w' hl' => ?_, fun s' d' hs' hg hf' => ?_, fun s' r' w' hf' => ?_, fun s' d' hs' hg hf' => ?_, h.gone, fun s' d' => ?_⟩
  · obtain ⟨h1, h2⟩ := h.here s' r' w' hl'
    constructor
    · change setConn st.wire s r w [] s' r' w' = []
      rw [setConn_eq]
      split
      · rfl
      · exact h1
    · intro d' hr hw
      change (if s' = s ∧ d'.reader = r ∧ d'.writer = w then [] else st.fwd s' d') = []
      split
      · rfl
      · exact h2 d' hr hw
  · change setConn st.failed s r w true s' d'.reader d'.writer = false at hf'
    have e : ¬ (s' = s ∧ d'.reader = r ∧ d'.writer = w) := by
      intro e
      rw [setConn_eq, if_pos e] at hf'
      cases hf'
    rw [hset _ _ _ e] at hf'
    have e2 : ¬ (s' = s ∧ d' ∈ n.conn s r w ∧ st.gone s d' = false) := fun h => e ⟨h.1, (mem_conn.mp h.2.1).2⟩
    have := h.flow s' d' hs' hg hf'
    unfold onWire at this ⊢
    unfold broken
    dsimp only
    rw [if_neg e, if_neg e, if_neg e2, setConn_eq, if_neg e]
    exact this
  · change setConn st.failed s r w true s' r' w' = true at hf'
    unfold broken
    dsimp only
    by_cases e : s' = s ∧ r' = r ∧ w' = w
    · rw [setConn_eq, if_pos e]
      refine ⟨rfl, fun d' hr hw => ?_⟩
      have e' : s' = s ∧ d'.reader = r ∧ d'.writer = w := ⟨e.1, hr.trans e.2.1, hw.trans e.2.2⟩
      rw [if_pos e', if_pos e', if_pos e']
      exact ⟨rfl, rfl, rfl⟩
    · rw [hset _ _ _ e] at hf'
      obtain ⟨h1, h2⟩ := h.over s' r' w' hf'
      rw [setConn_eq, if_neg e]
      refine ⟨h1, fun d' hr hw => ?_⟩
      have e' : ¬ (s' = s ∧ d'.reader = r ∧ d'.writer = w) := fun e' => e ⟨e'.1, hr.symm.trans e'.2.1, hw.symm.trans e'.2.2⟩
      rw [if_neg e', if_neg e', if_neg e']
      exact h2 d' hr hw
  · change setConn st.failed s r w true s' d'.reader d'.writer = true at hf'
    unfold broken
    dsimp only
    by_cases e : s' = s ∧ d'.reader = r ∧ d'.writer = w
    · obtain ⟨rfl, rfl, rfl⟩ := e
      have := h.flow s' d' hs' hg hfail
      rw [if_pos ⟨rfl, mem_conn.mpr ⟨(isStream_iff.mp hs').2.2, rfl, rfl⟩, hg⟩]
      refine ⟨st.got s' d' ++ st.queue s' d', ?_, by rw [List.append_assoc]⟩
      rw [this]
      simp only [List.append_assoc]
      exact ⟨_, by rw [List.append_assoc]⟩
    · rw [hset _ _ _ e] at hf'
      have e2 : ¬ (s' = s ∧ d' ∈ n.conn s r w ∧ st.gone s d' = false) := fun h => e ⟨h.1, (mem_conn.mp h.2.1).2⟩
      rw [if_neg e2]
      exact h.cut s' d' hs' hg hf'
  · rcases h.pre s' d' with h1 | ⟨hf', x, hx, he⟩
    · exact Or.inl h1
    · exact Or.inr ⟨hle _ _ _ hf', x, hx, he⟩

theorem flow_step {st : State S α σ} (inv : Inv n st) (h : Flow n st) (x : Step S) : Flow n (n.step st x) := by
  cases x with
  | ask s d =>
    unfold step; dsimp only
    split
    · exact ⟨h.here, h.flow, h.over, h.cut, h.gone, h.pre⟩
    · exact h
  | take s d =>
    unfold step; dsimp only
    split
    · rename_i hr
      split
      · rename_i a rest hq
        have hs : n.isStream s d = true := by simp only [reads, Bool.and_eq_true] at hr; exact hr.1.1.1
        have hg : st.gone s d = false := by
          cases hg : st.gone s d with
          | false => rfl
          | true =>
            exfalso
            have := h.gone s d hg
            simp only [reads, Bool.and_eq_true, Bool.not_eq_true'] at hr
            rw [this] at hr
            cases hr.1.1.2
        refine flow_receive (st := { st with queue := set st.queue s d rest, got := set st.got s d (st.got s d ++ [a]) })
          ⟨h.here, fun s' d' hs' hg hfail => ?_, h.over, fun s' d' hs' hg hfail => ?_, h.gone, fun s' d' => ?_⟩ s d _
        · have hf := h.flow s' d' hs' hg hfail
          unfold onWire at hf ⊢
          dsimp only
          rw [set_eq, set_eq]
          by_cases e : s' = s ∧ d' = d
          · rw [if_pos e, if_pos e]
            rw [e.1, e.2, hq] at hf
            rw [e.1, e.2, hf]
            simp
          · rw [if_neg e, if_neg e]
            exact hf
        · obtain ⟨x, hx, he⟩ := h.cut s' d' hs' hg hfail
          refine ⟨x, hx, ?_⟩
          dsimp only
          rw [set_eq, set_eq]
          by_cases e : s' = s ∧ d' = d
          · rw [if_pos e, if_pos e, ← he, e.1, e.2, hq]
            simp
          · rw [if_neg e, if_neg e]
            exact he
        · dsimp only
          rw [set_eq]
          split
          · rename_i e
            rw [e.1, e.2]
            cases hfail : st.failed s d.reader d.writer with
            | false =>
              left
              rw [h.flow s d hs hg hfail, hq]
              simp
            | true =>
              obtain ⟨x, hx, he⟩ := h.cut s d hs hg hfail
              rw [hq] at he
              rcases List.eq_nil_or_concat rest with rfl | ⟨rest', z, rfl⟩
              · exact Or.inr ⟨rfl, x, hx, he⟩
              · left
                have he' : (st.got s d ++ [a] ++ rest') ++ [z] = x ++ [n.error s d.reader d.writer] := by
                  rw [← he]
                  simp
                have := (List.append_inj' he' rfl).1
                refine List.IsPrefix.trans ?_ hx
                rw [← this]
                exact List.prefix_append _ _
          · exact h.pre s' d'
      · exact h
    · exact h
  | eof s d =>
    unfold step; dsimp only
    split
    · refine flow_receive (st := { st with eof := set st.eof s d true }) ⟨h.here, h.flow, h.over, h.cut, fun s' d' hg => ?_, h.pre⟩ s d _
      change set st.eof s d true s' d' = true
      rw [set_eq]
      split
      · rfl
      · exact h.gone s' d' hg
    · exact h
  | drop s d =>
    unfold step; dsimp only
    split
    · exact flow_drop inv h s d
    · exact h
  | push s d =>
    unfold step; dsimp only
    split
    · split
      · rename_i a rest q w b hp hl
        split
        · refine ⟨fun s' r' w' hl' => ⟨(h.here s' r' w' hl').1, fun d' hr hw => ?_⟩, fun s' d' hs' hg hfail => ?_,
            fun s' r' w' hfail => ⟨(h.over s' r' w' hfail).1, fun d' hr hw => ?_⟩, h.cut, h.gone, h.pre⟩
          · change set st.fwd s d _ s' d' = []
            rw [set_eq]
            split
            · rename_i e
              rw [← hr, ← hw, e.1, e.2, hl] at hl'
              cases hl'
            · exact (h.here s' r' w' hl').2 d' hr hw
          · have hf := h.flow s' d' hs' hg hfail
            unfold onWire at hf ⊢
            dsimp only
            rw [set_eq, set_eq]
            by_cases e : s' = s ∧ d' = d
            · rw [if_pos e, if_pos e]
              rw [e.1, e.2, hp] at hf
              rw [e.1, e.2, hf]
              simp
            · rw [if_neg e, if_neg e]
              exact hf
          · obtain ⟨h3, h4, h5⟩ := (h.over s' r' w' hfail).2 d' hr hw
            have e : ¬ (s' = s ∧ d' = d) := by
              rintro ⟨rfl, rfl⟩
              rw [hp] at h5; cases h5
            dsimp only
            rw [set_ne _ _ e, set_ne _ _ e]
            exact ⟨h3, h4, h5⟩
        · exact h
      · rename_i a rest hp hl
        split
        · rename_i hq
          refine ⟨h.here, fun s' d' hs' hg hfail => ?_, fun s' r' w' hfail => ⟨(h.over s' r' w' hfail).1, fun d' hr hw => ?_⟩,
            fun s' d' hs' hg hfail => ?_, h.gone, h.pre⟩
          · have hf := h.flow s' d' hs' hg hfail
            unfold onWire at hf ⊢
            dsimp only
            rw [set_eq, set_eq]
            by_cases e : s' = s ∧ d' = d
            · rw [if_pos e, if_pos e]
              obtain ⟨h1, h2⟩ := h.here s d.reader d.writer hl
              rw [e.1, e.2, hp, hq, h1, h2 d rfl rfl] at hf
              rw [e.1, e.2, hf, h1, h2 d rfl rfl]
              simp
            · rw [if_neg e, if_neg e]
              exact hf
          · obtain ⟨h3, h4, h5⟩ := (h.over s' r' w' hfail).2 d' hr hw
            have e : ¬ (s' = s ∧ d' = d) := by
              rintro ⟨rfl, rfl⟩
              rw [hp] at h5; cases h5
            dsimp only
            rw [set_ne _ _ e]
            exact ⟨h3, h4, h5⟩
          · have e : ¬ (s' = s ∧ d' = d) := by
              rintro ⟨rfl, rfl⟩
              have h5 := ((h.over s' _ _ hfail).2 d' rfl rfl).2.2
              change st.pend s' d' = [] at h5
              rw [hp] at h5; cases h5
            dsimp only
            rw [set_ne _ _ e]
            exact h.cut s' d' hs' hg hfail
        · exact h
      · exact h
    · exact h
  | close s d =>
    unfold step; dsimp only
    split
    · refine ⟨h.here, h.flow, fun s' r' w' hfail => ⟨(h.over s' r' w' hfail).1, fun d' hr hw => ?_⟩, h.cut, h.gone, h.pre⟩
      obtain ⟨h3, h4, h5⟩ := (h.over s' r' w' hfail).2 d' hr hw
      refine ⟨?_, h4, h5⟩
      change set st.done s d true s' d' = true
      rw [set_eq]
      split
      · rfl
      · exact h3
    · exact h
  | send s d =>
    unfold step; dsimp only
    split
    · split
      · rename_i a rest q w b hf hl
        split
        · refine ⟨fun s' r' w' hl' => ?_, fun s' d' hs' hg hfail => ?_, fun s' r' w' hfail => ?_, h.cut, h.gone, h.pre⟩
          · obtain ⟨h1, h2⟩ := h.here s' r' w' hl'
            constructor
            · change setConn st.wire s d.reader d.writer _ s' r' w' = []
              rw [setConn_eq, if_neg]
              · exact h1
              · rintro ⟨rfl, rfl, rfl⟩
                rw [hl] at hl'; cases hl'
            · intro d' hr hw
              change set st.fwd s d rest s' d' = []
              rw [set_ne]
              · exact h2 d' hr hw
              · rintro ⟨rfl, rfl⟩
                rw [← hr, ← hw, hl] at hl'; cases hl'
          · have hflow := h.flow s' d' hs' hg hfail
            unfold onWire at hflow ⊢
            dsimp only
            rw [set_eq, setConn_eq]
            by_cases e : s' = s ∧ d' = d
            · obtain ⟨rfl, rfl⟩ := e
              rw [if_pos ⟨rfl, rfl, rfl⟩, if_pos ⟨rfl, rfl⟩]
              rw [hf] at hflow
              rw [hflow]
              simp
            · rw [if_neg e]
              by_cases e2 : s' = s ∧ d'.reader = d.reader ∧ d'.writer = d.writer
              · rw [if_pos e2]
                have hne : ¬ d = d' := fun h => e ⟨e2.1, h.symm⟩
                rw [List.filter_append]
                have : ([(d, a)] : List (Stream × α)).filter (fun x => decide (x.1 = d')) = [] := by simp [hne]
                rw [this, List.append_nil, ← e2.1, ← e2.2.1, ← e2.2.2]
                exact hflow
              · rw [if_neg e2]
                exact hflow
          · obtain ⟨h1, h2⟩ := h.over s' r' w' hfail
            have e : ¬ (s' = s ∧ r' = d.reader ∧ w' = d.writer) := by
              rintro ⟨rfl, rfl, rfl⟩
              have := (h2 d rfl rfl).2.1
              rw [hf] at this; cases this
            dsimp only
            rw [setConn_eq, if_neg e]
            refine ⟨h1, fun d' hr hw => ?_⟩
            rw [set_ne]
            · exact h2 d' hr hw
            · rintro ⟨rfl, rfl⟩
              exact e ⟨rfl, hr.symm, hw.symm⟩
        · exact h
      · exact h
    · exact h
  | carry s r w =>
    unfold step; dsimp only
    split
    · rename_i q w' budget d a rest hl hw
      obtain ⟨hd1, hd2, hd3⟩ := inv.wire s r w (d, a) (by rw [hw]; simp)
      dsimp only at hd1 hd2 hd3
      have hhere : ∀ s' r' w', n.link s' r' w' = .local → setConn st.wire s r w rest s' r' w' = [] ∧ ∀ d, d.reader = r' → d.writer = w' → st.fwd s' d = [] := by
        intro s' r' w' hl'
        obtain ⟨h1, h2⟩ := h.here s' r' w' hl'
        refine ⟨?_, h2⟩
        rw [setConn_eq, if_neg]
        · exact h1
        · rintro ⟨rfl, rfl, rfl⟩
          rw [hl] at hl'; cases hl'
      have hover : ∀ s' r' w', st.failed s' r' w' = true → ¬ (s' = s ∧ r' = r ∧ w' = w) := by
        rintro s' r' w' hfail ⟨rfl, rfl, rfl⟩
        have := (h.over _ _ _ hfail).1
        rw [hw] at this; cases this
      have hover' : ∀ s' r' w', st.failed s' r' w' = true → setConn st.wire s r w rest s' r' w' = []
          ∧ ∀ d, d.reader = r' → d.writer = w' → st.done s' d = true ∧ st.fwd s' d = [] ∧ st.pend s' d = [] := by
        intro s' r' w' hfail
        rw [setConn_eq, if_neg (hover _ _ _ hfail)]
        exact h.over s' r' w' hfail
      split
      · split
        · rename_i hgd
          refine ⟨hhere, fun s' d' hs' hg hfail => ?_, hover', h.cut, h.gone, h.pre⟩
          have hflow := h.flow s' d' hs' hg hfail
          unfold onWire at hflow ⊢
          dsimp only
          rw [setConn_eq]
          split
          · rename_i e
            have hne : ¬ d = d' := by
              rintro rfl
              dsimp only at hg
              rw [e.1, hgd] at hg; cases hg
            rw [e.1, e.2.1, e.2.2, hw, List.filter_cons_of_neg (by simpa using hne)] at hflow
            rw [e.1]
            exact hflow
          · exact hflow
        · refine ⟨hhere, fun s' d' hs' hg hfail => ?_, hover', fun s' d' hs' hg hfail => ?_, h.gone, h.pre⟩
          · have hflow := h.flow s' d' hs' hg hfail
            unfold onWire at hflow ⊢
            dsimp only
            rw [set_eq, setConn_eq]
            by_cases e : s' = s ∧ d' = d
            · obtain ⟨rfl, rfl⟩ := e
              rw [if_pos ⟨rfl, rfl⟩, if_pos ⟨rfl, hd2, hd3⟩]
              rw [hd2, hd3, hw, List.filter_cons_of_pos (by simp)] at hflow
              rw [hflow]
              simp
            · rw [if_neg e]
              by_cases e2 : s' = s ∧ d'.reader = r ∧ d'.writer = w
              · rw [if_pos e2]
                have hne : ¬ d = d' := fun h => e ⟨e2.1, h.symm⟩
                rw [e2.1, e2.2.1, e2.2.2, hw, List.filter_cons_of_neg (by simpa using hne)] at hflow
                rw [e2.1]
                exact hflow
              · rw [if_neg e2]
                exact hflow
          · have e : ¬ (s' = s ∧ d' = d) := by
              rintro ⟨rfl, rfl⟩
              exact hover _ _ _ hfail ⟨rfl, hd2, hd3⟩
            dsimp only
            rw [set_ne _ _ e]
            exact h.cut s' d' hs' hg hfail
      · exact h
    · exact h
  | fail s r w =>
    unfold step; dsimp only
    split
    · rename_i hf
      exact flow_fail h hf
    · exact h

theorem flow_foldl : ∀ (steps : List (Step S)) (st : State S α σ), Inv n st → Flow n st → Flow n (steps.foldl n.step st)
  | [], _, _, h => h
  | x :: rest, _, inv, h => flow_foldl rest _ (inv_step inv x) (flow_step inv h x)

theorem flow_reached {st : State S α σ} (h : n.Reached st) : Flow n st := by
  obtain ⟨steps, rfl⟩ := h
  exact flow_foldl steps _ inv_start flow_start

/-- A stream that was read to the end delivered everything, or the error of its connection. -/
theorem delivered {st : State S α σ} (h : n.Reached st) {s : S} {d : Stream} (hs : n.isStream s d = true) (he : st.eof s d = true)
    (hg : st.gone s d = false) :
    if st.failed s d.reader d.writer = true then ∃ x, x <+: st.made s d ∧ st.got s d = x ++ [n.error s d.reader d.writer]
    else st.got s d = st.made s d := by
  have inv := inv_reached h
  have fl := flow_reached h
  split
  · rename_i hfail
    obtain ⟨x, hx, hgot⟩ := fl.cut s d hs hg hfail
    rw [inv.queue s d he, List.append_nil] at hgot
    exact ⟨x, hx, hgot⟩
  · rename_i hfail
    have hfail := Bool.eq_false_iff.mpr hfail
    have ho := inv.eof s d he (Or.inl hg)
    have hmem := (isStream_iff.mp hs).2.2
    have hp := inv.done s d (over_done hmem ho)
    have hf := fl.flow s d hs hg hfail
    have hw : st.wire s d.reader d.writer = [] ∧ st.fwd s d = [] := by
      cases hl : n.link s d.reader d.writer with
      | remote q w b =>
        rw [over_remote hl] at ho
        exact ⟨ho.1, (ho.2 d (mem_conn.mpr ⟨hmem, rfl, rfl⟩)).2⟩
      | «local» =>
        obtain ⟨h1, h2⟩ := fl.here _ _ _ hl
        exact ⟨h1, h2 d rfl rfl⟩
    unfold onWire at hf
    rw [inv.queue s d he, hp, hw.1, hw.2] at hf
    simpa using hf.symm

end Net

end DD.Net
