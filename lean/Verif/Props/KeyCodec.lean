import Verif.Model.KeyCodec
import Verif.Props.UserCodec
/-
C89: custom expressions arrive at the workers, except as hash keys of exchanges.
-/
namespace DD.UserCodec

variable {B X F : Type}

/-- The expression is one of a node of the plan. -/
inductive InNode (e : Plan B X) : StagePlan B X → Prop
  | here (es : List (Plan B X)) (ch : List (StagePlan B X)) : e ∈ es → InNode e (.node es ch)
  | under (es : List (Plan B X)) (ch : List (StagePlan B X)) (p : StagePlan B X) : p ∈ ch → InNode e p → InNode e (.node es ch)

/-- The expression is a hash key of an exchange of the plan. -/
inductive IsKey (e : Plan B X) : StagePlan B X → Prop
  | here (ks : List (Plan B X)) : e ∈ ks → IsKey e (.exchange ks)
  | under (es : List (Plan B X)) (ch : List (StagePlan B X)) (p : StagePlan B X) : p ∈ ch → IsKey e p → IsKey e (.node es ch)

/-- The expression has no custom part. -/
def BuiltIn (e : Plan B X) : Prop := ∀ x ch, ¬ Within (.ext x ch) e

mutual
theorem alone_back : ∀ (e : Plan B X) (w : Wire B), encodeAlone (ownExpr : Codec B X F) e = .ok w →
    BuiltIn e ∧ decodeAlone (ownExpr : Codec B X F) w = .ok e
  | .builtin b ch, w, h => by
    rw [encodeAlone] at h
    cases hw : encodeAloneAll (ownExpr : Codec B X F) ch with
    | error e => rw [hw] at h; cases h
    | ok ws =>
      rw [hw] at h
      cases h
      obtain ⟨h1, h2⟩ := alone_back_all ch ws hw
      refine ⟨?_, by simp [decodeAlone, h2, bind, Except.bind]⟩
      intro x c hx
      cases hx with
      | builtin _ _ q hq hx => exact h1 q hq x c hx
  | .ext x ch, w, h => by
    rw [encodeAlone] at h; cases h
theorem alone_back_all : ∀ (es : List (Plan B X)) (ws : List (Wire B)), encodeAloneAll (ownExpr : Codec B X F) es = .ok ws →
    (∀ e ∈ es, BuiltIn e) ∧ decodeAloneAll (ownExpr : Codec B X F) ws = .ok es
  | [], ws, h => by cases h; exact ⟨by simp, rfl⟩
  | e :: es, ws, h => by
    rw [encodeAloneAll] at h
    cases hw : encodeAlone (ownExpr : Codec B X F) e with
    | error e => rw [hw] at h; cases h
    | ok w =>
      cases hws : encodeAloneAll (ownExpr : Codec B X F) es with
      | error e => rw [hw, hws] at h; cases h
      | ok ws' =>
        rw [hw, hws] at h
        cases h
        obtain ⟨h1, h2⟩ := alone_back e w hw
        obtain ⟨h3, h4⟩ := alone_back_all es ws' hws
        refine ⟨?_, by simp [decodeAloneAll, h2, h4, bind, Except.bind]⟩
        intro q hq
        rcases List.mem_cons.mp hq with rfl | hq
        · exact h1
        · exact h3 q hq
end

mutual
theorem alone_sends : ∀ (e : Plan B X), BuiltIn e → ∃ w, encodeAlone (ownExpr : Codec B X F) e = .ok w
  | .builtin b ch, h => by
    obtain ⟨ws, hw⟩ := alone_sends_all ch fun e he x c hx => h x c (.builtin b ch e he hx)
    exact ⟨.builtin b ws, by rw [encodeAlone, hw]; rfl⟩
  | .ext x ch, h => absurd .here (h x ch)
theorem alone_sends_all : ∀ (es : List (Plan B X)), (∀ e ∈ es, BuiltIn e) →
    ∃ ws, encodeAloneAll (ownExpr : Codec B X F) es = .ok ws
  | [], _ => ⟨[], rfl⟩
  | e :: es, h => by
    obtain ⟨w, hw⟩ := alone_sends e (h e (by simp))
    obtain ⟨ws, hws⟩ := alone_sends_all es fun q hq => h q (List.mem_cons_of_mem _ hq)
    exact ⟨w :: ws, by rw [encodeAloneAll, hw, hws]; rfl⟩
end

theorem ownExpr_faithful (p : Plan B X) : (ownExpr : Codec B X F).Faithful p ∧ (ownExpr : Codec B X F).Clean p :=
  ⟨fun h => by simp [Codec.Accepts, ownExpr] at h, fun _ => rfl⟩

/-- The codecs users register read back what they write of the custom parts of `e`, and write nothing if they refuse. -/
def Trusted (calls : List (Codec B X F)) (e : Plan B X) : Prop :=
  ∀ x ch, Within (.ext x ch) e → ∀ c ∈ calls, c.Faithful (.ext x ch) ∧ c.Clean (.ext x ch)

mutual
theorem stage_back (P : Prost) (hP : P.Lawful) (calls later : List (Codec B X F)) :
    ∀ (p : StagePlan B X) (w : StageWire B), (∀ e, InNode e p → Trusted calls e) →
      sendStage P (registered calls) p = .ok w → receiveStage P (registered (calls ++ later)) w = .ok p
  | .node es ch, w, hg, h => by
    rw [sendStage] at h
    cases hes : encodePlans P ((registered calls).combined ownExpr) es with
    | error e => rw [hes] at h; cases h
    | ok ws =>
      cases hch : sendStages P (registered calls) ch with
      | error e => rw [hes, hch] at h; cases h
      | ok cs =>
        rw [hes, hch] at h
        cases h
        have h1 := plans_back P hP ((registered calls).combined ownExpr) ((registered (calls ++ later)).combined ownExpr)
          (by simp [Session.combined, registered_userCodecs]) es ws
          (fun q hq x c hx d hd => by
            simp only [Session.combined, registered_userCodecs] at hd
            rcases List.mem_cons.mp hd with rfl | hd
            · exact ownExpr_faithful _
            · exact hg q (.here es ch hq) x c hx d hd) hes
        have h2 := stages_back P hP calls later ch cs (fun q hq e he => hg e (.under es ch q hq he)) hch
        rw [receiveStage, h1, h2]; rfl
  | .exchange ks, w, _, h => by
    rw [sendStage] at h
    cases hks : encodeAloneAll (ownExpr : Codec B X F) ks with
    | error e => rw [hks] at h; cases h
    | ok ws =>
      rw [hks] at h
      cases h
      rw [receiveStage, (alone_back_all ks ws hks).2]; rfl
theorem stages_back (P : Prost) (hP : P.Lawful) (calls later : List (Codec B X F)) :
    ∀ (ps : List (StagePlan B X)) (ws : List (StageWire B)), (∀ p ∈ ps, ∀ e, InNode e p → Trusted calls e) →
      sendStages P (registered calls) ps = .ok ws → receiveStages P (registered (calls ++ later)) ws = .ok ps
  | [], ws, _, h => by cases h; rfl
  | p :: ps, ws, hg, h => by
    rw [sendStages] at h
    cases hp : sendStage P (registered calls) p with
    | error e => rw [hp] at h; cases h
    | ok w =>
      cases hps : sendStages P (registered calls) ps with
      | error e => rw [hp, hps] at h; cases h
      | ok ws' =>
        rw [hp, hps] at h
        cases h
        rw [receiveStages, stage_back P hP calls later p w (hg p (by simp)) hp,
          stages_back P hP calls later ps ws' (fun q hq => hg q (List.mem_cons_of_mem _ hq)) hps]
        rfl
end

/-- **C89, partial.** The workers register the codecs of the coordinator in the same order, and maybe more after them. Then every plan of
a stage the coordinator manages to send arrives unchanged, with every custom expression in it. Missing, and false: that it can be sent
if a registered codec accepts each custom expression (`C89_hash_keys_false`). -/
theorem C89_custom_expressions_arrive_partial (P : Prost) (hP : P.Lawful) (calls later : List (Codec B X F)) (p : StagePlan B X)
    (w : StageWire B) (good : ∀ e, InNode e p → Trusted calls e) (sent : sendStage P (registered calls) p = .ok w) :
    receiveStage P (registered (calls ++ later)) w = .ok p :=
  stage_back P hP calls later p w good sent

theorem exprs_sent_iff (P : Prost) (calls : List (Codec B X F)) (es : List (Plan B X)) :
    (∃ ws, encodePlans P ((registered calls).combined ownExpr) es = .ok ws) ↔
      ∀ e ∈ es, ∀ x ch, Within (.ext x ch) e → ∃ c ∈ calls, c.Accepts (.ext x ch) := by
  have hone : ∀ e : Plan B X, (∃ w, encodePlan P ((registered calls).combined ownExpr) e = .ok w) ↔
      ∀ x ch, Within (.ext x ch) e → ∃ c ∈ calls, c.Accepts (.ext x ch) := by
    intro e
    rw [C65_sent_iff_accepted P ownExpr calls e]
    refine forall_congr' fun x => forall_congr' fun ch => forall_congr' fun _ => ?_
    constructor
    · rintro ⟨c, hc, ha⟩
      rcases List.mem_cons.mp hc with rfl | hc
      · simp [Codec.Accepts, ownExpr] at ha
      · exact ⟨c, hc, ha⟩
    · rintro ⟨c, hc, ha⟩; exact ⟨c, List.mem_cons_of_mem _ hc, ha⟩
  induction es with
  | nil => exact ⟨fun _ e he => by simp at he, fun _ => ⟨[], rfl⟩⟩
  | cons e es ih =>
    constructor
    · rintro ⟨ws, h⟩
      rw [encodePlans] at h
      cases hw : encodePlan P ((registered calls).combined ownExpr) e with
      | error e => rw [hw] at h; cases h
      | ok w =>
        cases hws : encodePlans P ((registered calls).combined ownExpr) es with
        | error e => rw [hw, hws] at h; cases h
        | ok ws' =>
          intro q hq
          rcases List.mem_cons.mp hq with rfl | hq
          · exact (hone q).mp ⟨w, hw⟩
          · exact ih.mp ⟨ws', hws⟩ q hq
    · intro h
      obtain ⟨w, hw⟩ := (hone e).mpr (h e (by simp))
      obtain ⟨ws, hws⟩ := ih.mpr fun q hq => h q (List.mem_cons_of_mem _ hq)
      exact ⟨w :: ws, by rw [encodePlans, hw, hws]; rfl⟩

mutual
theorem stage_sent_iff (P : Prost) (calls : List (Codec B X F)) : ∀ p : StagePlan B X,
    (∃ w, sendStage P (registered calls) p = .ok w) ↔
      (∀ e, InNode e p → ∀ x ch, Within (.ext x ch) e → ∃ c ∈ calls, c.Accepts (.ext x ch)) ∧ ∀ e, IsKey e p → BuiltIn e
  | .node es ch => by
    constructor
    · rintro ⟨w, h⟩
      rw [sendStage] at h
      cases hes : encodePlans P ((registered calls).combined ownExpr) es with
      | error e => rw [hes] at h; cases h
      | ok ws =>
        cases hch : sendStages P (registered calls) ch with
        | error e => rw [hes, hch] at h; cases h
        | ok cs =>
          have h1 := (exprs_sent_iff P calls es).mp ⟨ws, hes⟩
          have h2 := (stages_sent_iff P calls ch).mp ⟨cs, hch⟩
          refine ⟨fun e he => ?_, fun e he => ?_⟩
          · cases he with
            | here _ _ he => exact h1 e he
            | under _ _ q hq he => exact (h2 q hq).1 e he
          · cases he with
            | under _ _ q hq he => exact (h2 q hq).2 e he
    · rintro ⟨h1, h2⟩
      obtain ⟨ws, hws⟩ := (exprs_sent_iff P calls es).mpr fun e he => h1 e (.here es ch he)
      obtain ⟨cs, hcs⟩ := (stages_sent_iff P calls ch).mpr fun q hq =>
        ⟨fun e he => h1 e (.under es ch q hq he), fun e he => h2 e (.under es ch q hq he)⟩
      exact ⟨.node ws cs, by rw [sendStage, hws, hcs]; rfl⟩
  | .exchange ks => by
    constructor
    · rintro ⟨w, h⟩
      rw [sendStage] at h
      cases hks : encodeAloneAll (ownExpr : Codec B X F) ks with
      | error e => rw [hks] at h; cases h
      | ok ws =>
        refine ⟨fun e he => (by cases he), fun e he => ?_⟩
        cases he with
        | here _ he => exact (alone_back_all ks ws hks).1 e he
    · rintro ⟨_, h2⟩
      obtain ⟨ws, hws⟩ := alone_sends_all (F := F) ks fun e he => h2 e (.here ks he)
      exact ⟨.exchange ws, by rw [sendStage, hws]; rfl⟩
theorem stages_sent_iff (P : Prost) (calls : List (Codec B X F)) : ∀ ps : List (StagePlan B X),
    (∃ ws, sendStages P (registered calls) ps = .ok ws) ↔ ∀ p ∈ ps,
      (∀ e, InNode e p → ∀ x ch, Within (.ext x ch) e → ∃ c ∈ calls, c.Accepts (.ext x ch)) ∧ ∀ e, IsKey e p → BuiltIn e
  | [] => ⟨fun _ p hp => by simp at hp, fun _ => ⟨[], rfl⟩⟩
  | p :: ps => by
    constructor
    · rintro ⟨ws, h⟩
      rw [sendStages] at h
      cases hp : sendStage P (registered calls) p with
      | error e => rw [hp] at h; cases h
      | ok w =>
        cases hps : sendStages P (registered calls) ps with
        | error e => rw [hp, hps] at h; cases h
        | ok ws' =>
          intro q hq
          rcases List.mem_cons.mp hq with hq | hq
          · rw [hq]; exact (stage_sent_iff P calls p).mp ⟨w, hp⟩
          · exact (stages_sent_iff P calls ps).mp ⟨ws', hps⟩ q hq
    · intro h
      obtain ⟨w, hw⟩ := (stage_sent_iff P calls p).mpr (h p (by simp))
      obtain ⟨ws, hws⟩ := (stages_sent_iff P calls ps).mpr fun q hq => h q (List.mem_cons_of_mem _ hq)
      exact ⟨w :: ws, by rw [sendStages, hw, hws]; rfl⟩
end

/-- **C89** The plan of a stage can be sent exactly if every custom part of the expressions of its nodes is accepted by a registered
codec, and no hash key of an exchange has a custom part. -/
theorem C89_sent_iff (P : Prost) (calls : List (Codec B X F)) (p : StagePlan B X) :
    (∃ w, sendStage P (registered calls) p = .ok w) ↔
      (∀ e, InNode e p → ∀ x ch, Within (.ext x ch) e → ∃ c ∈ calls, c.Accepts (.ext x ch)) ∧ ∀ e, IsKey e p → BuiltIn e :=
  stage_sent_iff P calls p

/-- **C89 is false for hash keys**: a plan with an exchange whose keys have a custom part cannot be sent, whatever codecs are
registered, although the same expression in a node can be, and the same keys in the head of a producer. -/
theorem C89_hash_keys_false (P : Prost) (calls : List (Codec B X F)) (p : StagePlan B X) (e : Plan B X) (x : X)
    (ch : List (Plan B X)) (hk : IsKey e p) (hx : Within (.ext x ch) e) : ¬ ∃ w, sendStage P (registered calls) p = .ok w :=
  fun h => ((C89_sent_iff P calls p).mp h).2 e hk x ch hx

/-- **C89** The hash keys of the head of a producer can be sent exactly if a registered codec accepts each custom part, and then
arrive unchanged (`encode_partitioning` and `decode_partitioning`, which use the composed codec). -/
theorem C89_producer_heads (P : Prost) (hP : P.Lawful) (calls later : List (Codec B X F)) (keys : List (Plan B X)) :
    ((∃ ws, encodePlans P ((registered calls).combined ownExpr) keys = .ok ws) ↔
      ∀ e ∈ keys, ∀ x ch, Within (.ext x ch) e → ∃ c ∈ calls, c.Accepts (.ext x ch)) ∧
    ∀ ws, (∀ e ∈ keys, Trusted calls e) → encodePlans P ((registered calls).combined ownExpr) keys = .ok ws →
      decodePlans P ((registered (calls ++ later)).combined ownExpr) ws = .ok keys := by
  refine ⟨exprs_sent_iff P calls keys, fun ws hg hs => ?_⟩
  refine plans_back P hP _ _ (by simp [Session.combined, registered_userCodecs]) keys ws (fun q hq x c hx d hd => ?_) hs
  simp only [Session.combined, registered_userCodecs] at hd
  rcases List.mem_cons.mp hd with rfl | hd
  · exact ownExpr_faithful _
  · exact hg q hq x c hx d hd

/-! Cases: `filterCodec` and `scanCodec` accept the custom parts of an expression; above an exchange it is sent, as its key it is not. -/

namespace Demo

/-- A custom function of a custom function of a column. -/
def expr : Plan Nat Custom := .builtin 7 [.ext (.filter 5) [.ext (.scan 2) []]]

end Demo

example : ∃ w, sendStage Demo.prost (registered [Demo.filterCodec, Demo.scanCodec])
    (.node [Demo.expr] [.exchange [.builtin 1 []]]) = .ok w ∧
    receiveStage Demo.prost (registered [Demo.filterCodec, Demo.scanCodec]) w = .ok (.node [Demo.expr] [.exchange [.builtin 1 []]]) :=
  ⟨_, rfl, rfl⟩

example : ¬ ∃ w, sendStage Demo.prost (registered [Demo.filterCodec, Demo.scanCodec])
    (.node [.builtin 1 []] [.exchange [Demo.expr]]) = .ok w :=
  C89_hash_keys_false _ _ _ Demo.expr (.scan 2) [] (.under _ _ (.exchange [Demo.expr]) (by simp) (.here _ (by simp)))
    (.builtin _ _ (.ext (.filter 5) [.ext (.scan 2) []]) (by simp) (.ext _ _ (.ext (.scan 2) []) (by simp) .here))

end DD.UserCodec
