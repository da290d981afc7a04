/-
C65: a custom plan node reaches the worker as it left the coordinator.
C66: a function reaches the worker only through the session of the worker.
-/
import Verif.Spec.UserCodec

namespace DD.UserCodec

variable {B X F : Type}

/-! ### Registration -/

theorem register_userCodecs (s : Session B X F) (c : Codec B X F) : (s.register c).userCodecs = s.userCodecs ++ [c] := by
  cases s with | mk o => cases o <;> rfl

theorem foldl_userCodecs (calls : List (Codec B X F)) (s : Session B X F) :
    (calls.foldl Session.register s).userCodecs = s.userCodecs ++ calls := by
  induction calls generalizing s with
  | nil => simp
  | cons c calls ih => simp [ih, register_userCodecs]

theorem registered_userCodecs (calls : List (Codec B X F)) : (registered calls).userCodecs = calls := by
  unfold registered; rw [foldl_userCodecs]; rfl

/-! ### The composed codec -/

theorem tryEncode_ok (f : Codec B X F → Bytes × Except Err Unit) :
    ∀ (cs : List (Codec B X F)) (i : Nat) (buf : Bytes) (e : Err) (t : Tagged),
      (∀ c ∈ cs, (f c).2 ≠ .ok () → (f c).1 = []) → tryEncode f cs i buf e = .ok t →
      ∃ j c, cs[j]? = some c ∧ (f c).2 = .ok () ∧ t = ⟨i + j, buf ++ (f c).1⟩ ∧
        ∀ k d, k < j → cs[k]? = some d → (f d).2 ≠ .ok ()
  | [], _, _, _, _, _, h => by simp [tryEncode] at h
  | c :: cs, i, buf, e, t, hc, h => by
    rw [tryEncode] at h
    rcases hf : f c with ⟨b, r⟩
    cases r with
    | ok u =>
      rw [hf] at h
      refine ⟨0, c, rfl, by simp [hf], ?_, fun k _ hk => absurd hk (Nat.not_lt_zero k)⟩
      simpa [hf] using h.symm
    | error e' =>
      rw [hf] at h
      have hb : b = [] := by
        have := hc c (List.mem_cons_self ..)
        rw [hf] at this; exact this (by simp)
      subst hb
      obtain ⟨j, d, hd, ha, ht, hk⟩ := tryEncode_ok f cs (i + 1) (buf ++ []) e' t
        (fun x hx => hc x (List.mem_cons_of_mem _ hx)) h
      refine ⟨j + 1, d, by simpa using hd, ha, by rw [ht]; simp; omega, ?_⟩
      intro k x hkj hx
      cases k with
      | zero => simp at hx; subst hx; simp [hf]
      | succ k => exact hk k x (by omega) (by simpa using hx)

theorem tryEncode_total (f : Codec B X F → Bytes × Except Err Unit) :
    ∀ (cs : List (Codec B X F)) (i : Nat) (buf : Bytes) (e : Err),
      (∃ c ∈ cs, (f c).2 = .ok ()) → ∃ t, tryEncode f cs i buf e = .ok t
  | [], _, _, _, h => by simp at h
  | c :: cs, i, buf, e, h => by
    rw [tryEncode]
    rcases hf : f c with ⟨b, r⟩
    cases r with
    | ok u => exact ⟨_, rfl⟩
    | error e' =>
      apply tryEncode_total f cs
      obtain ⟨d, hd, ha⟩ := h
      rcases List.mem_cons.1 hd with rfl | hd
      · simp [hf] at ha
      · exact ⟨d, hd, ha⟩

theorem tryEncode_fails (f : Codec B X F → Bytes × Except Err Unit) :
    ∀ (cs : List (Codec B X F)) (i : Nat) (buf : Bytes) (e : Err),
      (∀ c ∈ cs, (f c).2 ≠ .ok ()) → ∃ e', tryEncode f cs i buf e = .error e'
  | [], _, _, e, _ => ⟨e, rfl⟩
  | c :: cs, i, buf, e, h => by
    rw [tryEncode]
    rcases hf : f c with ⟨b, r⟩
    cases r with
    | ok u => exact absurd (by rw [hf]) (h c (List.mem_cons_self ..))
    | error e' => exact tryEncode_fails f cs _ _ _ fun x hx => h x (List.mem_cons_of_mem _ hx)

/-- A node some codec agrees to encode is decoded by the same codec, if the other side has it at the same position. -/
theorem composed_back (P : Prost) (hP : P.Lawful) (cs ds : List (Codec B X F)) (p : Plan B X) (n : Bytes)
    (hpre : cs <+: ds) (hf : ∀ c ∈ cs, c.Faithful p) (hc : ∀ c ∈ cs, c.Clean p)
    (h : composedEncode P cs (fun c => c.encode p) = .ok n) :
    composedDecode P ds (fun c b => c.decode b p.children) n = .ok p := by
  unfold composedEncode at h
  cases ht : tryEncode (fun c : Codec B X F => c.encode p) cs 0 [] (.internal "Empty list of composed codecs") with
  | error e => rw [ht] at h; simp [bind, Except.bind] at h
  | ok t =>
    rw [ht] at h
    obtain ⟨j, c, hj, ha, rfl, -⟩ := tryEncode_ok _ cs 0 [] _ t (fun c hm => hc c hm) ht
    have hn : P.enc ⟨0 + j, [] ++ (c.encode p).1⟩ = n := by simpa [bind, Except.bind] using h
    subst hn
    have hd : ds[j]? = some c := by
      obtain ⟨es, rfl⟩ := hpre
      rw [List.getElem?_append_left (List.getElem?_eq_some_iff.1 hj).1]; exact hj
    have hm : c ∈ cs := List.mem_of_getElem? hj
    simp [composedDecode, hP.back, bind, Except.bind, hd, hf c hm ha]

/-! ### Whole plans -/

mutual
theorem plan_back (P : Prost) (hP : P.Lawful) (cs ds : List (Codec B X F)) (hpre : cs <+: ds) :
    ∀ (p : Plan B X) (w : Wire B), (∀ x ch, Within (.ext x ch) p → ∀ c ∈ cs, c.Faithful (.ext x ch) ∧ c.Clean (.ext x ch)) →
      encodePlan P cs p = .ok w → decodePlan P ds w = .ok p
  | .builtin b ch, w, hc, h => by
    rw [encodePlan] at h
    cases hw : encodePlans P cs ch with
    | error e => rw [hw] at h; simp [bind, Except.bind] at h
    | ok ws =>
      rw [hw] at h
      have : w = .builtin b ws := by simpa [bind, Except.bind, eq_comm] using h
      subst this
      have := plans_back P hP cs ds hpre ch ws (fun q hq x y hx => hc x y (.builtin b ch q hq hx)) hw
      simp [decodePlan, this, bind, Except.bind]
  | .ext x ch, w, hc, h => by
    rw [encodePlan] at h
    cases hn : composedEncode P cs (fun c => c.encode (.ext x ch)) with
    | error e => rw [hn] at h; simp [bind, Except.bind] at h
    | ok n =>
      cases hw : encodePlans P cs ch with
      | error e => rw [hn, hw] at h; simp [bind, Except.bind] at h
      | ok ws =>
        rw [hn, hw] at h
        have : w = .ext n ws := by simpa [bind, Except.bind, eq_comm] using h
        subst this
        have hch := plans_back P hP cs ds hpre ch ws (fun q hq y z hy => hc y z (.ext x ch q hq hy)) hw
        have := composed_back P hP cs ds (.ext x ch) n hpre (fun c hm => (hc x ch .here c hm).1)
          (fun c hm => (hc x ch .here c hm).2) hn
        simp [decodePlan, hch, bind, Except.bind]
        exact this
theorem plans_back (P : Prost) (hP : P.Lawful) (cs ds : List (Codec B X F)) (hpre : cs <+: ds) :
    ∀ (ps : List (Plan B X)) (ws : List (Wire B)),
      (∀ q ∈ ps, ∀ x ch, Within (.ext x ch) q → ∀ c ∈ cs, c.Faithful (.ext x ch) ∧ c.Clean (.ext x ch)) →
      encodePlans P cs ps = .ok ws → decodePlans P ds ws = .ok ps
  | [], ws, _, h => by
    simp [encodePlans] at h; subst h; rfl
  | p :: ps, ws, hc, h => by
    rw [encodePlans] at h
    cases hw : encodePlan P cs p with
    | error e => rw [hw] at h; simp [bind, Except.bind] at h
    | ok w =>
      cases hws : encodePlans P cs ps with
      | error e => rw [hw, hws] at h; simp [bind, Except.bind] at h
      | ok vs =>
        rw [hw, hws] at h
        have : ws = w :: vs := by simpa [bind, Except.bind, eq_comm] using h
        subst this
        have h1 := plan_back P hP cs ds hpre p w (hc p (List.mem_cons_self ..)) hw
        have h2 := plans_back P hP cs ds hpre ps vs (fun q hq => hc q (List.mem_cons_of_mem _ hq)) hws
        simp [decodePlans, h1, h2, bind, Except.bind]
end

mutual
theorem plan_encodes (P : Prost) (cs : List (Codec B X F)) :
    ∀ p : Plan B X, (∀ x ch, Within (.ext x ch) p → ∃ c ∈ cs, c.Accepts (.ext x ch)) → ∃ w, encodePlan P cs p = .ok w
  | .builtin b ch, h => by
    obtain ⟨ws, hw⟩ := plans_encode P cs ch fun q hq x y hx => h x y (.builtin b ch q hq hx)
    exact ⟨.builtin b ws, by simp [encodePlan, hw, bind, Except.bind]⟩
  | .ext x ch, h => by
    obtain ⟨ws, hw⟩ := plans_encode P cs ch fun q hq y z hy => h y z (.ext x ch q hq hy)
    obtain ⟨t, ht⟩ := tryEncode_total (fun c : Codec B X F => c.encode (.ext x ch)) cs 0 []
      (.internal "Empty list of composed codecs") (h x ch .here)
    exact ⟨.ext (P.enc t) ws, by simp [encodePlan, composedEncode, ht, hw, bind, Except.bind]⟩
theorem plans_encode (P : Prost) (cs : List (Codec B X F)) :
    ∀ ps : List (Plan B X), (∀ q ∈ ps, ∀ x ch, Within (.ext x ch) q → ∃ c ∈ cs, c.Accepts (.ext x ch)) →
      ∃ ws, encodePlans P cs ps = .ok ws
  | [], _ => ⟨[], rfl⟩
  | p :: ps, h => by
    obtain ⟨w, hw⟩ := plan_encodes P cs p (h p (List.mem_cons_self ..))
    obtain ⟨ws, hws⟩ := plans_encode P cs ps fun q hq => h q (List.mem_cons_of_mem _ hq)
    exact ⟨w :: ws, by simp [encodePlans, hw, hws, bind, Except.bind]⟩
end

mutual
theorem plan_refused (P : Prost) (cs : List (Codec B X F)) (x : X) (y : List (Plan B X))
    (hno : ∀ c ∈ cs, ¬ c.Accepts (.ext x y)) :
    ∀ p : Plan B X, Within (.ext x y) p → ∃ e, encodePlan P cs p = .error e
  | .builtin b ch, h => by
    cases h with
    | builtin _ _ c hm hc =>
      obtain ⟨e, he⟩ := plans_refused P cs x y hno ch c hm hc
      exact ⟨e, by simp [encodePlan, he, bind, Except.bind]⟩
  | .ext z ch, h => by
    cases h with
    | here =>
      obtain ⟨e, he⟩ := tryEncode_fails (fun c : Codec B X F => c.encode (.ext x y)) cs 0 []
        (.internal "Empty list of composed codecs") hno
      exact ⟨e, by simp [encodePlan, composedEncode, he, bind, Except.bind]⟩
    | ext _ _ c hm hc =>
      obtain ⟨e, he⟩ := plans_refused P cs x y hno ch c hm hc
      rw [encodePlan]
      cases hn : composedEncode P cs (fun c => c.encode (.ext z ch)) with
      | error e' => exact ⟨e', rfl⟩
      | ok n => exact ⟨e, by simp [he, bind, Except.bind]⟩
theorem plans_refused (P : Prost) (cs : List (Codec B X F)) (x : X) (y : List (Plan B X))
    (hno : ∀ c ∈ cs, ¬ c.Accepts (.ext x y)) :
    ∀ (ps : List (Plan B X)) (q : Plan B X), q ∈ ps → Within (.ext x y) q → ∃ e, encodePlans P cs ps = .error e
  | p :: ps, q, hm, h => by
    rw [encodePlans]
    cases hp : encodePlan P cs p with
    | error e => exact ⟨e, rfl⟩
    | ok w =>
      rcases List.mem_cons.1 hm with hq | hm
      · obtain ⟨e, he⟩ := plan_refused P cs x y hno p (hq ▸ h)
        rw [hp] at he; cases he
      · obtain ⟨e, he⟩ := plans_refused P cs x y hno ps q hm h
        exact ⟨e, by simp [he, bind, Except.bind]⟩
end

/-! ### C65 -/

/-- **C65.** The worker registers the codecs of the coordinator in the same order, and maybe more codecs after them. Then every
plan the coordinator manages to send arrives unchanged: each custom node is decoded by the codec that encoded it, whatever the
other codecs would make of the same bytes. Asked of the codecs: they read back what they write, and write nothing if they
refuse. -/
theorem C65_custom_nodes_arrive (P : Prost) (hP : P.Lawful) (own : Codec B X F) (calls later : List (Codec B X F))
    (p : Plan B X) (w : Wire B)
    (good : ∀ x ch, Within (.ext x ch) p → ∀ c ∈ own :: calls, c.Faithful (.ext x ch) ∧ c.Clean (.ext x ch))
    (sent : encodePlan P ((registered calls).combined own) p = .ok w) :
    decodePlan P ((registered (calls ++ later)).combined own) w = .ok p := by
  unfold Session.combined at *
  rw [registered_userCodecs] at *
  exact plan_back P hP (own :: calls) _ (by simp [List.prefix_append]) p w good sent

/-- **C65.** A plan can be sent if and only if every custom node of it is accepted by one of the registered codecs. -/
theorem C65_sent_iff_accepted (P : Prost) (own : Codec B X F) (calls : List (Codec B X F)) (p : Plan B X) :
    (∃ w, encodePlan P ((registered calls).combined own) p = .ok w) ↔
      ∀ x ch, Within (.ext x ch) p → ∃ c ∈ own :: calls, c.Accepts (.ext x ch) := by
  unfold Session.combined
  rw [registered_userCodecs]
  constructor
  · rintro ⟨w, hw⟩ x ch hx
    refine Classical.byContradiction fun hno => ?_
    obtain ⟨e, he⟩ := plan_refused P (own :: calls) x ch (fun c hc ha => hno ⟨c, hc, ha⟩) p hx
    rw [hw] at he; cases he
  · exact plan_encodes P (own :: calls) p

/-- **C65.** The nodes of this project are encoded by its own codec, whatever the user registers. -/
theorem C65_own_nodes_first (P : Prost) (ownEnc : X → Option (Except Err Bytes))
    (dec : Bytes → List (Plan B X) → Except Err (Plan B X)) (calls : List (Codec B X F)) (x : X) (ch : List (Plan B X))
    (b : Bytes) (h : ownEnc x = some (.ok b)) :
    composedEncode P ((registered calls).combined (distributed ownEnc dec)) (fun c => c.encode (.ext x ch)) =
      .ok (P.enc ⟨0, b⟩) := by
  simp [Session.combined, composedEncode, tryEncode, distributed, h, bind, Except.bind]

/-! ### C66 -/

/-- The first codec is the project's own, which accepts every function and writes nothing. -/
theorem fn_encodes (P : Prost) (hP : P.Lawful) (ownEnc : X → Option (Except Err Bytes))
    (dec : Bytes → List (Plan B X) → Except Err (Plan B X)) (s : Session B X F) (f : Fn F) :
    composedEncode P (s.combined (distributed ownEnc dec)) (fun c => c.encodeFn f) = .ok [] := by
  simp [Session.combined, composedEncode, tryEncode, distributed, hP.default, bind, Except.bind]

theorem fn_decodes (P : Prost) (hP : P.Lawful) (ownEnc : X → Option (Except Err Bytes))
    (dec : Bytes → List (Plan B X) → Except Err (Plan B X)) (s : Session B X F) (registry : String → Option (Fn F))
    (name : String) :
    findFn P (s.combined (distributed ownEnc dec)) registry name none =
      match registry name with
      | some f => .ok f
      | none => .error (.notImpl "PhysicalExtensionCodec is not provided for scalar function") := by
  cases h : registry name with
  | some f => simp [findFn, h]
  | none =>
    have hd : P.dec [] = .ok ⟨0, []⟩ := by have := hP.back ⟨0, []⟩; rwa [hP.default] at this
    simp [findFn, h, composedDecode, hd, Session.combined, distributed, bind, Except.bind]

/-- What travels of an expression: the names of its functions. -/
def named : Expr F → ExprWire
  | .col i => .col i
  | .call f args => .call f.name none (args.map named)

mutual
theorem expr_encodes (P : Prost) (hP : P.Lawful) (ownEnc : X → Option (Except Err Bytes))
    (dec : Bytes → List (Plan B X) → Except Err (Plan B X)) (s : Session B X F) :
    ∀ e : Expr F, encodeExpr P (s.combined (distributed ownEnc dec)) e = .ok (named e)
  | .col i => by simp [encodeExpr, named]
  | .call f args => by
    rw [encodeExpr, fn_encodes P hP ownEnc dec s f, exprs_encode P hP ownEnc dec s args, named]
    rfl
theorem exprs_encode (P : Prost) (hP : P.Lawful) (ownEnc : X → Option (Except Err Bytes))
    (dec : Bytes → List (Plan B X) → Except Err (Plan B X)) (s : Session B X F) :
    ∀ es : List (Expr F), encodeExprs P (s.combined (distributed ownEnc dec)) es = .ok (es.map named)
  | [] => rfl
  | e :: es => by
    rw [encodeExprs, expr_encodes P hP ownEnc dec s e, exprs_encode P hP ownEnc dec s es]
    rfl
end

mutual
theorem expr_arrives (P : Prost) (hP : P.Lawful) (ownEnc : X → Option (Except Err Bytes))
    (dec : Bytes → List (Plan B X) → Except Err (Plan B X)) (s : Session B X F) (registry : String → Option (Fn F)) :
    ∀ e : Expr F, (∀ f, Calls f e → registry f.name = some f) →
      decodeExpr P (s.combined (distributed ownEnc dec)) registry (named e) = .ok e
  | .col i, _ => by simp [decodeExpr, named]
  | .call f args, h => by
    rw [named, decodeExpr, fn_decodes P hP ownEnc dec s registry f.name, h f (.here args),
      exprs_arrive P hP ownEnc dec s registry args fun a ha g hg => h g (.arg f args a ha hg)]
    rfl
theorem exprs_arrive (P : Prost) (hP : P.Lawful) (ownEnc : X → Option (Except Err Bytes))
    (dec : Bytes → List (Plan B X) → Except Err (Plan B X)) (s : Session B X F) (registry : String → Option (Fn F)) :
    ∀ es : List (Expr F), (∀ a ∈ es, ∀ f, Calls f a → registry f.name = some f) →
      decodeExprs P (s.combined (distributed ownEnc dec)) registry (es.map named) = .ok es
  | [], _ => rfl
  | e :: es, h => by
    rw [List.map_cons, decodeExprs, expr_arrives P hP ownEnc dec s registry e (h e (List.mem_cons_self ..)),
      exprs_arrive P hP ownEnc dec s registry es fun a ha => h a (List.mem_cons_of_mem _ ha)]
    rfl
end

mutual
theorem expr_found (P : Prost) (hP : P.Lawful) (ownEnc : X → Option (Except Err Bytes))
    (dec : Bytes → List (Plan B X) → Except Err (Plan B X)) (s : Session B X F) (registry : String → Option (Fn F)) :
    ∀ e : Expr F, decodeExpr P (s.combined (distributed ownEnc dec)) registry (named e) = .ok e →
      ∀ f, Calls f e → registry f.name = some f
  | .col i, _, f, hf => by cases hf
  | .call g args, h, f, hf => by
    rw [named, decodeExpr, fn_decodes P hP ownEnc dec s registry g.name] at h
    cases hg : registry g.name with
    | none => rw [hg] at h; simp [bind, Except.bind] at h
    | some g' =>
      rw [hg] at h
      cases ha : decodeExprs P (s.combined (distributed ownEnc dec)) registry (args.map named) with
      | error e => rw [ha] at h; simp [bind, Except.bind] at h
      | ok es =>
        rw [ha] at h
        have h' : (Expr.call g' es : Expr F) = .call g args := by simpa [bind, Except.bind] using h
        injection h' with h1 h2
        cases hf with
        | here => rw [hg, h1]
        | arg _ _ a hm hc => exact exprs_found P hP ownEnc dec s registry args (by rw [ha, h2]) a hm f hc
theorem exprs_found (P : Prost) (hP : P.Lawful) (ownEnc : X → Option (Except Err Bytes))
    (dec : Bytes → List (Plan B X) → Except Err (Plan B X)) (s : Session B X F) (registry : String → Option (Fn F)) :
    ∀ es : List (Expr F), decodeExprs P (s.combined (distributed ownEnc dec)) registry (es.map named) = .ok es →
      ∀ a ∈ es, ∀ f, Calls f a → registry f.name = some f
  | [], _, a, ha, _, _ => by simp at ha
  | e :: es, h, a, hm, f, hf => by
    rw [List.map_cons, decodeExprs] at h
    cases he : decodeExpr P (s.combined (distributed ownEnc dec)) registry (named e) with
    | error x => rw [he] at h; simp [bind, Except.bind] at h
    | ok e' =>
      rw [he] at h
      cases hes : decodeExprs P (s.combined (distributed ownEnc dec)) registry (es.map named) with
      | error x => rw [hes] at h; simp [bind, Except.bind] at h
      | ok es' =>
        rw [hes] at h
        have h' : e' :: es' = e :: es := by simpa [bind, Except.bind] using h
        injection h' with h1 h2
        rcases List.mem_cons.1 hm with ha | hm
        · exact expr_found P hP ownEnc dec s registry e (by rw [he, h1]) f (ha ▸ hf)
        · exact exprs_found P hP ownEnc dec s registry es (by rw [hes, h2]) a hm f hf
end

/-- **C66.** An expression arrives at the worker unchanged if and only if the session of the worker has, under the name of
each function of the expression, that function. The codecs registered on either side have no part in it. -/
theorem C66_functions_come_from_the_worker_partial (P : Prost) (hP : P.Lawful) (ownEnc : X → Option (Except Err Bytes))
    (dec : Bytes → List (Plan B X) → Except Err (Plan B X)) (coordinator worker : Session B X F)
    (registry : String → Option (Fn F)) (e : Expr F) :
    (∃ w, encodeExpr P (coordinator.combined (distributed ownEnc dec)) e = .ok w ∧
      decodeExpr P (worker.combined (distributed ownEnc dec)) registry w = .ok e) ↔
    ∀ f, Calls f e → registry f.name = some f := by
  constructor
  · rintro ⟨w, hw, hd⟩
    rw [expr_encodes P hP ownEnc dec coordinator e] at hw
    cases hw
    exact expr_found P hP ownEnc dec worker registry e hd
  · intro h
    exact ⟨named e, expr_encodes P hP ownEnc dec coordinator e, expr_arrives P hP ownEnc dec worker registry e h⟩

/-! ### A concrete case -/

namespace Demo

/-- A message format that satisfies the laws: the position in unary, closed by a zero byte, and then the data. -/
def unary : Nat → Bytes → Bytes
  | 0, b => 0 :: b
  | n + 1, b => 1 :: unary n b

def readUnary : Bytes → Except Err Tagged
  | [] => .ok ⟨0, []⟩
  | x :: b => if x = 0 then .ok ⟨0, b⟩ else do
    let t ← readUnary b
    .ok ⟨t.position + 1, t.blob⟩

def prost : Prost := ⟨fun t => if t = ⟨0, []⟩ then [] else unary t.position t.blob, readUnary⟩

theorem readUnary_unary (n : Nat) (b : Bytes) : readUnary (unary n b) = .ok ⟨n, b⟩ := by
  induction n with
  | zero => simp [unary, readUnary]
  | succ n ih => simp [unary, readUnary, ih, bind, Except.bind]

theorem prost_lawful : prost.Lawful where
  back t := by
    by_cases h : t = ⟨0, []⟩
    · subst h; rfl
    · simp only [prost, if_neg h]; exact readUnary_unary t.position t.blob
  default := by simp [prost]

/-- Custom nodes: a scan of a shard, and a filter; `boundary` stands for the nodes of the project. -/
inductive Custom where
  | boundary (n : UInt8) | scan (shard : UInt8) | filter (bound : UInt8)
  deriving DecidableEq

def ownEnc : Custom → Option (Except Err Bytes)
  | .boundary n => some (.ok [n])
  | _ => none

def ownDec : Bytes → List (Plan Nat Custom) → Except Err (Plan Nat Custom)
  | [n], ch => .ok (.ext (.boundary n) ch)
  | _, _ => .error (.internal "Expected DistributedExecNode in DistributedExecProto")

abbrev own : Codec Nat Custom Nat := distributed ownEnc ownDec

/-- The codec of the scan. -/
def scanCodec : Codec Nat Custom Nat where
  encode
    | .ext (.scan s) _ => ([s], .ok ())
    | _ => ([], .error (.user 1))
  decode b _ := match b with
    | [s] => .ok (.ext (.scan s) [])
    | _ => .error (.user 1)
  encodeFn f := ([UInt8.ofNat f.body], .ok ())
  decodeFn n b := match b with
    | [x] => .ok ⟨n, x.toNat⟩
    | _ => .error (.user 1)

/-- The codec of the filter. -/
def filterCodec : Codec Nat Custom Nat where
  encode
    | .ext (.filter s) _ => ([s], .ok ())
    | _ => ([], .error (.user 2))
  decode b ch := match b with
    | [s] => .ok (.ext (.filter s) ch)
    | _ => .error (.user 2)
  encodeFn _ := ([], .error (.user 2))
  decodeFn _ _ := .error (.user 2)

/-- A filter above a scan, above a boundary. -/
def sample : Plan Nat Custom := .ext (.boundary 3) [.builtin 7 [.ext (.filter 5) [.ext (.scan 2) []]]]

theorem sample_good (x : Custom) (ch : List (Plan Nat Custom)) (h : Within (.ext x ch) sample) :
    ∀ c ∈ [own, filterCodec, scanCodec], c.Faithful (.ext x ch) ∧ c.Clean (.ext x ch) := by
  have hx : (∃ n, x = .boundary n) ∨ (∃ n, x = .filter n) ∨ (∃ n, x = .scan n ∧ ch = []) := by
    unfold sample at h
    cases h with
    | here => exact .inl ⟨_, rfl⟩
    | ext _ _ c hm hc =>
      simp at hm; subst hm
      cases hc with
      | builtin _ _ c hm hc =>
        simp at hm; subst hm
        cases hc with
        | here => exact .inr (.inl ⟨_, rfl⟩)
        | ext _ _ c hm hc =>
          simp at hm; subst hm
          cases hc with
          | here => exact .inr (.inr ⟨_, rfl, rfl⟩)
          | ext _ _ c hm _ => simp at hm
  intro c hc
  simp at hc
  rcases hx with ⟨n, rfl⟩ | ⟨n, rfl⟩ | ⟨n, rfl, rfl⟩ <;> rcases hc with rfl | rfl | rfl <;>
    simp [Codec.Faithful, Codec.Clean, Codec.Accepts, distributed, ownEnc, ownDec, filterCodec, scanCodec, Plan.children]

def sampleWire : Wire Nat :=
  .ext (prost.enc ⟨0, [3]⟩) [.builtin 7 [.ext (prost.enc ⟨1, [5]⟩) [.ext (prost.enc ⟨2, [2]⟩) []]]]

theorem sample_sent : encodePlan prost ((registered [filterCodec, scanCodec]).combined own) sample = .ok sampleWire := by rfl

end Demo

open Demo in
/-- Non-vacuity: a plan with a node of the project and two custom nodes, two codecs that use the same bytes for different
nodes, and a worker with one codec more than the coordinator. -/
example : decodePlan prost ((registered ([filterCodec, scanCodec] ++ [filterCodec])).combined own) sampleWire = .ok sample :=
  C65_custom_nodes_arrive prost prost_lawful own [filterCodec, scanCodec] [filterCodec] sample sampleWire
    sample_good sample_sent

open Demo in
/-- Non-vacuity: without the codec of the scan the plan cannot be sent. -/
example : ¬ ∃ w, encodePlan prost ((registered [filterCodec]).combined own) sample = .ok w := by
  rw [C65_sent_iff_accepted]
  intro h
  have hs : Within (.ext (.scan 2) []) sample :=
    .ext _ _ _ (List.mem_cons_self ..) (.builtin _ _ _ (List.mem_cons_self ..) (.ext _ _ _ (List.mem_cons_self ..) .here))
  obtain ⟨c, hc, ha⟩ := h (.scan 2) [] hs
  simp at hc
  rcases hc with rfl | rfl <;> simp [Codec.Accepts, distributed, ownEnc, filterCodec] at ha

open Demo in
/-- **C65**, the order of registration matters: a worker that registers the same codecs in the other order decodes a different
plan, without an error. -/
theorem C65_order_of_codecs_false :
    ¬ ∀ (B X F : Type) (P : Prost) (own : Codec B X F) (calls calls' : List (Codec B X F)) (p q : Plan B X) (w : Wire B),
      P.Lawful → calls.Perm calls' →
      (∀ x ch, Within (.ext x ch) p → ∀ c ∈ own :: calls, c.Faithful (.ext x ch) ∧ c.Clean (.ext x ch)) →
      encodePlan P ((registered calls).combined own) p = .ok w →
      decodePlan P ((registered calls').combined own) w = .ok q → q = p := by
  intro h
  have := h Nat Custom Nat prost own [filterCodec, scanCodec] [scanCodec, filterCodec] sample
    (.ext (.boundary 3) [.builtin 7 [.ext (.scan 5) []]]) sampleWire
    prost_lawful (List.Perm.swap _ _ []) sample_good sample_sent (by rfl)
  simp [sample] at this

namespace Demo

/-- A codec that writes the tag of the message before it looks at the node. -/
def eager : Codec Nat Custom Nat where
  encode _ := ([9], .error (.user 3))
  decode _ _ := .error (.user 3)
  encodeFn _ := ([], .error (.user 3))
  decodeFn _ _ := .error (.user 3)

end Demo

open Demo in
/-- **C65**, a codec that writes before it refuses spoils the data of the codecs after it: the plan is sent, and the worker
cannot decode it. -/
theorem C65_writing_before_refusing_false :
    ¬ ∀ (B X F : Type) (P : Prost) (own : Codec B X F) (calls : List (Codec B X F)) (p : Plan B X) (w : Wire B),
      P.Lawful → (∀ x ch, Within (.ext x ch) p → ∀ c ∈ own :: calls, c.Faithful (.ext x ch)) →
      encodePlan P ((registered calls).combined own) p = .ok w →
      decodePlan P ((registered calls).combined own) w = .ok p := by
  intro h
  have := h Nat Custom Nat prost own [eager, scanCodec] (.ext (.scan 2) []) (.ext (prost.enc ⟨2, [9, 2]⟩) []) prost_lawful
    (by
      intro x ch hx c hc
      cases hx with
      | here =>
        simp at hc
        rcases hc with rfl | rfl | rfl <;>
          simp [Codec.Faithful, Codec.Accepts, distributed, ownEnc, eager, scanCodec, Plan.children]
      | ext _ _ c hm _ => simp at hm)
    (by rfl)
  exact absurd this (by
    have : decodePlan prost ((registered [eager, scanCodec]).combined own) (.ext (prost.enc ⟨2, [9, 2]⟩) []) =
      .error (.user 1) := by rfl
    rw [this]; simp)

open Demo in
/-- Non-vacuity: a nested call whose two functions the worker has. -/
example : ∃ w, encodeExpr prost ((registered [scanCodec]).combined own) (.call ⟨"f", 1⟩ [.call ⟨"g", 2⟩ [.col 0]]) = .ok w ∧
    decodeExpr prost ((registered []).combined own)
      (fun n => if n = "f" then some ⟨"f", 1⟩ else if n = "g" then some ⟨"g", 2⟩ else none) w =
      .ok (.call ⟨"f", 1⟩ [.call ⟨"g", 2⟩ [.col 0]]) := by
  refine (C66_functions_come_from_the_worker_partial prost prost_lawful ownEnc ownDec _ _ _ _).2 ?_
  intro f hf
  cases hf with
  | here => simp
  | arg _ _ a hm hc =>
    simp at hm; subst hm
    cases hc with
    | here => simp
    | arg _ _ a hm hc => simp at hm; subst hm; cases hc

open Demo in
/-- **C66** in full is false: a codec registered on both sides that can encode and decode a function is not asked, and the
query fails on a worker whose session lacks the function. -/
theorem C66_codec_for_functions_false :
    ¬ ∀ (B X F : Type) (P : Prost) (ownEnc : X → Option (Except Err Bytes))
      (dec : Bytes → List (Plan B X) → Except Err (Plan B X)) (c : Codec B X F) (registry : String → Option (Fn F)) (f : Fn F),
      P.Lawful → (c.encodeFn f).2 = .ok () → c.decodeFn f.name (c.encodeFn f).1 = .ok f →
      ∃ w, encodeExpr P ((registered [c]).combined (distributed ownEnc dec)) (.call f []) = .ok w ∧
        decodeExpr P ((registered [c]).combined (distributed ownEnc dec)) registry w = .ok (.call f []) := by
  intro h
  have := h Nat Custom Nat prost ownEnc ownDec scanCodec (fun _ => none) ⟨"f", 1⟩ prost_lawful (by rfl) (by rfl)
  rw [C66_functions_come_from_the_worker_partial prost prost_lawful] at this
  simpa using this ⟨"f", 1⟩ (.here [])

end DD.UserCodec
