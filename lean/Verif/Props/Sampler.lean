/-
C34: sampling a stage does not alter its streams. C51: a final load report is exact.
-/
import Verif.Model.Sampler

namespace DD.Sampler

variable {B : Type}

theorem readyChunk_items (cap : Nat) : ∀ (polls : List (Poll B)) (acc : List (Except Err B)),
    (readyChunk cap acc polls).chunk ++ items (readyChunk cap acc polls).rest
      = acc.reverse ++ items polls
  | [], acc => by simp [readyChunk, items]
  | .pending :: r, acc => by
    simp only [readyChunk]
    split
    · simpa [items] using readyChunk_items cap r acc
    · simp
  | .item x :: r, acc => by
    simp only [readyChunk]
    split
    · simp [items]
    · simpa [items] using readyChunk_items cap r (x :: acc)

theorem readyChunk_empty (cap : Nat) : ∀ (polls : List (Poll B)) (acc : List (Except Err B)),
    (readyChunk cap acc polls).chunk = [] → acc = [] ∧ items polls = []
  | [], acc, h => by simpa [readyChunk, items] using h
  | .pending :: r, acc, h => by
    simp only [readyChunk] at h
    split at h
    · simpa [items] using readyChunk_empty cap r acc h
    · rename_i hn; simp_all
  | .item x :: r, acc, h => by
    simp only [readyChunk] at h
    split at h
    · simp at h
    · exact absurd (readyChunk_empty cap r (x :: acc) h).1 (by simp)

theorem readyChunk_terminated (cap : Nat) : ∀ (polls : List (Poll B)) (acc : List (Except Err B)),
    (readyChunk cap acc polls).terminated = true → (readyChunk cap acc polls).rest = []
  | [], acc, _ => by simp [readyChunk]
  | .pending :: r, acc, h => by
    simp only [readyChunk] at h ⊢
    split at h
    · rename_i hn; rw [if_pos hn]; exact readyChunk_terminated cap r acc h
    · simp at h
  | .item x :: r, acc, h => by
    simp only [readyChunk] at h ⊢
    split at h
    · simp at h
    · rename_i hn; rw [if_neg hn]; exact readyChunk_terminated cap r (x :: acc) h

theorem peekAll_ok : ∀ (l : List (Except Err B)) (p : List B), peekAll l = .ok p → l = p.map .ok
  | [], p, h => by simp [peekAll] at h; subst h; rfl
  | .ok b :: r, p, h => by
    simp only [peekAll] at h
    cases hr : peekAll r with
    | error e => rw [hr] at h; cases h
    | ok q =>
      rw [hr] at h
      cases h
      simp [← peekAll_ok r q hr]
  | .error e :: r, p, h => by simp [peekAll] at h

theorem peekAll_error : ∀ (l : List (Except Err B)) (e : Err), peekAll l = .error e →
    ∃ pre post, l = List.map Except.ok pre ++ .error e :: post
  | [], e, h => by simp [peekAll] at h
  | .ok b :: r, e, h => by
    simp only [peekAll] at h
    cases hr : peekAll r with
    | ok q => rw [hr] at h; cases h
    | error e' =>
      rw [hr] at h
      cases h
      obtain ⟨pre, post, hp⟩ := peekAll_error r e hr
      exact ⟨b :: pre, post, by simp [hp]⟩
  | .error e' :: r, e, h => by
    simp only [peekAll] at h
    cases h
    exact ⟨[], r, rfl⟩

theorem peekAll_eq_error_of_mem : ∀ (l : List (Except Err B)) (e : Err), .error e ∈ l →
    ∃ e', peekAll l = .error e'
  | .ok b :: r, e, h => by
    obtain ⟨e', he⟩ := peekAll_eq_error_of_mem r e (by simpa using h)
    exact ⟨e', by simp [peekAll, he, Except.map]⟩
  | .error e' :: r, e, _ => ⟨e', rfl⟩

theorem ok_injective : ∀ (p q : List B), List.map (Except.ok (ε := Err)) p = q.map .ok → p = q
  | [], [], _ => rfl
  | [], _ :: _, h => by simp at h
  | _ :: _, [], h => by simp at h
  | a :: p, b :: q, h => by
    simp only [List.map_cons, List.cons.injEq, Except.ok.injEq] at h
    rw [h.1, ok_injective p q h.2]

theorem first_error_unique : ∀ (p₁ p₂ : List B) (e₁ e₂ : Err) (q₁ q₂ : List (Except Err B)),
    List.map Except.ok p₁ ++ .error e₁ :: q₁ = List.map Except.ok p₂ ++ .error e₂ :: q₂ → e₁ = e₂
  | [], [], _, _, _, _, h => by simp at h; exact h.1
  | [], _ :: _, _, _, _, _, h => by simp at h
  | _ :: _, [], _, _, _, _, h => by simp at h
  | _ :: p₁, _ :: p₂, e₁, e₂, q₁, q₂, h => by
    simp only [List.map_cons, List.cons_append, List.cons.injEq] at h
    exact first_error_unique p₁ p₂ e₁ e₂ q₁ q₂ h.2

/-- **C34.** Wherever sampling stops (any pattern of pending answers, any chunk limit), a sampled
partition whose input does not fail delivers exactly the input's batches, in order. If the input fails
after the sampled part, the delivered sequence is still identical, error included.

Full claim: the sequence is unchanged for *every* stream. Missing, because false of the code: an error
inside the sampled part, see `C34_error_in_sample`. -/
theorem C34_transparent_partial (rows : B → Nat) (cap : Nat) (polls : List (Poll B))
    (hok : ∀ x ∈ (readyChunk cap [] polls).chunk, ∃ b, x = .ok b) :
    (sample rows cap polls).1 = items polls := by
  have hi := readyChunk_items cap polls []
  simp only [List.reverse_nil, List.nil_append] at hi
  simp only [sample]
  split
  · rename_i h
    rw [List.isEmpty_iff] at h
    rw [h] at hi; simpa using hi
  · cases hp : peekAll (readyChunk cap [] polls).chunk with
    | error e =>
      obtain ⟨pre, post, hl⟩ := peekAll_error _ e hp
      obtain ⟨b, hb⟩ := hok (.error e) (by rw [hl]; simp)
      cases hb
    | ok p => simp only; rw [← peekAll_ok _ p hp, hi]

/-- **C34**, the form a user sees: a stream without errors is never altered. -/
theorem C34_transparent_without_errors (rows : B → Nat) (cap : Nat) (polls : List (Poll B))
    (hok : ∀ e, Except.error e ∉ items polls) :
    (sample rows cap polls).1 = items polls := by
  refine C34_transparent_partial rows cap polls fun x hx => ?_
  have hi := readyChunk_items cap polls []
  cases x with
  | ok b => exact ⟨b, rfl⟩
  | error e =>
    refine absurd ?_ (hok e)
    rw [show items polls = _ from hi.symm]
    exact List.mem_append_left _ hx

/-- **C34**, what remains true in general: an error is never swallowed and never invented. The sampled
stream fails iff the input does, with the same first error, and the batches delivered before it are a
prefix of the batches the input delivers before it. -/
theorem C34_error_preserved (rows : B → Nat) (cap : Nat) (polls : List (Poll B)) (pre : List B)
    (e : Err) (post : List (Except Err B)) (h : items polls = pre.map .ok ++ .error e :: post) :
    ∃ pre' post', (sample rows cap polls).1 = List.map Except.ok pre' ++ .error e :: post'
      ∧ (pre' = pre ∨ pre' = []) := by
  by_cases hok : ∀ x ∈ (readyChunk cap [] polls).chunk, ∃ b, x = .ok b
  · exact ⟨pre, post, by rw [C34_transparent_partial rows cap polls hok, h], .inl rfl⟩
  · have hi := readyChunk_items cap polls []
    simp only [List.reverse_nil, List.nil_append] at hi
    have : ∃ e', Except.error e' ∈ (readyChunk cap [] polls).chunk := by
      apply Classical.byContradiction
      intro hne
      refine hok fun x hx => ?_
      cases x with
      | ok b => exact ⟨b, rfl⟩
      | error e' => exact absurd ⟨e', hx⟩ hne
    obtain ⟨e', he'⟩ := this
    obtain ⟨e'', hp⟩ := peekAll_eq_error_of_mem _ e' he'
    obtain ⟨pre2, post2, hl⟩ := peekAll_error _ _ hp
    have heq : e'' = e := by
      rw [h, hl, List.append_assoc, List.cons_append] at hi
      exact first_error_unique _ _ _ _ _ _ hi
    refine ⟨[], [], ?_, .inr rfl⟩
    simp only [sample]
    rw [if_neg (by rw [hl]; simp), hp, heq]
    rfl

/-- **C34** fails as stated: batches the input delivered before an error that arrives in the same ready
run are dropped, and with them everything after the error (sampler.rs:266-268, `batch?` leaves the task
before the peeked batches are handed over). -/
theorem C34_error_in_sample :
    (sample (fun b : Nat => b) readyChunkLimit [.item (.ok 7), .item (.error (.user 1)), .item (.ok 8)]).1
        = [.error (.user 1)]
    ∧ items [Poll.item (.ok 7), .item (.error (.user 1)), .item (.ok 8)]
        = [.ok 7, .error (.user 1), .ok 8] := by
  constructor <;> rfl

/-- Non-vacuity: a stream that is pending, then ready twice, pending again and then fails, sampled with
the real limit, keeps everything. -/
example : (sample (fun b : Nat => b) readyChunkLimit
      [.pending, .item (.ok 1), .item (.ok 2), .pending, .item (.ok 3), .item (.error (.user 9))]).1
    = [.ok 1, .ok 2, .ok 3, .error (.user 9)] := by rfl

/-- **C51.** The row count of a load report never exceeds what the partition delivers, and a report
marked final (`reached_eos`) of a stream without errors counts exactly the rows of the partition. -/
theorem C51_final_report_exact (rows : B → Nat) (cap : Nat) (polls : List (Poll B)) (bs : List B)
    (h : items polls = bs.map .ok) :
    (sample rows cap polls).2.rowsReady ≤ (bs.map rows).sum
    ∧ ((sample rows cap polls).2.reachedEos = true →
        (sample rows cap polls).2.rowsReady = (bs.map rows).sum) := by
  have hi := readyChunk_items cap polls []
  simp only [List.reverse_nil, List.nil_append] at hi
  have ht := readyChunk_terminated cap polls []
  simp only [sample]
  split
  · rename_i hc
    rw [List.isEmpty_iff] at hc
    have := (readyChunk_empty cap polls [] hc).2
    rw [h, List.map_eq_nil_iff] at this
    subst this; simp
  · cases hp : peekAll (readyChunk cap [] polls).chunk with
    | error e => simp
    | ok p =>
      have hl := peekAll_ok _ p hp
      have : ∃ r, bs = p ++ r ∧ items (readyChunk cap [] polls).rest = r.map .ok := by
        rw [hl, h] at hi
        obtain ⟨a, b, hab, ha, hb⟩ := List.append_eq_map_iff.mp hi
        refine ⟨b, ?_, hb.symm⟩
        rw [hab]
        congr 1
        exact ok_injective _ _ ha
      obtain ⟨r, hr, hrest⟩ := this
      simp only
      refine ⟨by rw [hr]; simp, fun hterm => ?_⟩
      rw [ht hterm] at hrest
      have : r = [] := by simpa [items] using hrest.symm
      rw [hr, this]; simp

theorem readyChunk_ready (cap : Nat) : ∀ (bs : List (Except Err B)) (acc : List (Except Err B)),
    acc.length + bs.length < cap →
    readyChunk cap acc (bs.map .item) = ⟨acc.reverse ++ bs, [], true⟩
  | [], acc, _ => by simp [readyChunk]
  | x :: bs, acc, h => by
    simp only [List.length_cons] at h
    simp only [List.map_cons, readyChunk]
    rw [if_neg (by omega), readyChunk_ready cap bs (x :: acc) (by simp; omega)]
    simp

theorem readyChunk_pending (cap : Nat) (polls : List (Poll B)) : ∀ k : Nat,
    readyChunk cap [] (List.replicate k .pending ++ polls) = readyChunk cap [] polls
  | 0 => rfl
  | k + 1 => by simpa [List.replicate_succ, readyChunk] using readyChunk_pending cap polls k

/-- **C51** A partition that is produced in one go, however long it took to start, and fits in the limit
is reported completely: all its rows, and that it has ended. This includes the empty partition. -/
theorem C51_complete_report (rows : B → Nat) (cap wait : Nat) (bs : List B) (h : bs.length < cap) :
    (sample rows cap (List.replicate wait .pending ++ bs.map fun b => .item (.ok b))).2
      = ⟨(bs.map rows).sum, true⟩ := by
  have e : readyChunk cap [] (List.replicate wait .pending ++ bs.map fun b => .item (.ok b))
      = ⟨bs.map .ok, [], true⟩ := by
    rw [readyChunk_pending]
    have := readyChunk_ready (B := B) cap (bs.map .ok) [] (by simpa using h)
    simpa [List.map_map, Function.comp_def] using this
  have hp : ∀ bs : List B, peekAll (bs.map Except.ok) = .ok bs := by
    intro bs
    induction bs with
    | nil => rfl
    | cons b bs ih => simp [peekAll, ih, Except.map]
  unfold sample
  rw [e]
  cases bs with
  | nil => rfl
  | cons b bs => simp only [hp]; rfl

/-- **C51** A report marked final leaves nothing behind: the stream handed on holds the reported batches
and no more, so nothing of the partition is unaccounted for. -/
theorem C51_final_means_ended (rows : B → Nat) (cap : Nat) (polls : List (Poll B))
    (h : (sample rows cap polls).2.reachedEos = true) :
    items (readyChunk cap [] polls).rest = [] ∧ ∀ e, Except.error e ∉ items polls := by
  have hi := readyChunk_items cap polls []
  simp only [List.reverse_nil, List.nil_append] at hi
  simp only [sample] at h
  split at h
  · rename_i hc
    rw [List.isEmpty_iff] at hc
    have := (readyChunk_empty cap polls [] hc).2
    rw [this] at hi
    exact ⟨(List.append_eq_nil_iff.mp hi).2, by simp [this]⟩
  · cases hp : peekAll (readyChunk cap [] polls).chunk with
    | error e => rw [hp] at h; simp at h
    | ok p =>
      rw [hp] at h
      have hr := readyChunk_terminated cap polls [] h
      rw [hr] at hi ⊢
      refine ⟨rfl, fun e he => ?_⟩
      rw [← hi, peekAll_ok _ p hp] at he
      simp [items] at he

/-- Non-vacuity: a final and a non-final report of the same three batches. -/
example : (sample (fun b : Nat => b) readyChunkLimit
      [.item (.ok 4), .item (.ok 5), .item (.ok 6)]).2 = ⟨15, true⟩
    ∧ (sample (fun b : Nat => b) readyChunkLimit
      [.item (.ok 4), .pending, .item (.ok 5), .item (.ok 6)]).2 = ⟨4, false⟩ := by
  constructor <;> rfl

/-! ### The node -/

/-- How often partition `p` was handed out in a history. -/
def handed (p : Nat) (l : List (Op × Option (Except Err (List (Except Err B))))) : Nat :=
  l.countP fun r => match r with
    | (.execute q, some (.ok _)) => q == p
    | _ => false

/-- How often the sampler was started in a history. -/
def kicks (os : List Op) : Nat := os.countP fun o => match o with | .kickOff => true | _ => false

theorem handed_le (rows : B → Nat) (input : Nat → List (Poll B)) (p : Nat) :
    ∀ (os : List Op) (n : Node B),
      handed p (n.run rows input os) ≤ kicks os + (if (n.stream p).isSome then 1 else 0)
  | [], n => by simp [Node.run, handed]
  | .kickOff :: os, n => by
    have ih := handed_le rows input p os (n.step rows input .kickOff).1
    simp only [Node.run, handed, kicks, List.countP_cons, Node.step] at ih ⊢
    split at ih <;> simp at ih ⊢ <;> omega
  | .execute q :: os, n => by
    have ih := handed_le rows input p os (n.step rows input (.execute q)).1
    simp only [Node.run, handed, kicks, List.countP_cons, Node.step] at ih ⊢
    by_cases hq : n.partitions ≤ q
    · simp only [hq, if_true] at ih ⊢; simp at ih ⊢; omega
    · simp only [hq, if_false] at ih ⊢
      cases hs : n.stream q with
      | none => simp only [hs] at ih ⊢; simp at ih ⊢; omega
      | some s =>
        simp only [hs] at ih ⊢
        by_cases hqp : p = q
        · subst hqp; simp [hs] at ih ⊢; omega
        · have : ¬ (q = p) := fun h => hqp h.symm
          simp [hqp, this] at ih ⊢; omega

/-- What every handed-out stream of a history is. -/
theorem handed_is_sample (rows : B → Nat) (input : Nat → List (Poll B)) :
    ∀ (os : List Op) (n : Node B),
      (∀ p s, n.stream p = some s → s = (sample rows readyChunkLimit (input p)).1) →
      ∀ p s, (Op.execute p, some (.ok s)) ∈ n.run rows input os →
        p < n.partitions ∧ s = (sample rows readyChunkLimit (input p)).1
  | [], n, _, p, s, hm => by simp [Node.run] at hm
  | .kickOff :: os, n, hn, p, s, hm => by
    simp only [Node.run, Node.step, List.mem_cons, Prod.mk.injEq, reduceCtorEq, false_and,
      false_or] at hm
    refine handed_is_sample rows input os ⟨n.partitions, fun p =>
      if p < n.partitions then some (sample rows readyChunkLimit (input p)).1 else n.stream p⟩
      (fun q t ht => ?_) p s hm
    simp only at ht
    split at ht
    · cases ht; rfl
    · exact hn q t ht
  | .execute q :: os, n, hn, p, s, hm => by
    by_cases hq : n.partitions ≤ q
    · simp only [Node.run, Node.step, hq, if_true, List.mem_cons] at hm
      rcases hm with hm | hm
      · simp at hm
      · exact handed_is_sample rows input os n hn p s hm
    · cases hs : n.stream q with
      | none =>
        simp only [Node.run, Node.step, hq, if_false, hs, List.mem_cons] at hm
        rcases hm with hm | hm
        · simp at hm
        · exact handed_is_sample rows input os n hn p s hm
      | some t =>
        simp only [Node.run, Node.step, hq, if_false, hs, List.mem_cons] at hm
        rcases hm with hm | hm
        · simp only [Prod.mk.injEq, Op.execute.injEq, Option.some.injEq, Except.ok.injEq] at hm
          obtain ⟨rfl, rfl⟩ := hm
          exact ⟨by omega, hn _ _ hs⟩
        · refine handed_is_sample rows input os ⟨n.partitions, fun r =>
            if r = q then none else n.stream r⟩ (fun r u hu => ?_) p s hm
          simp only at hu
          split at hu
          · cases hu
          · exact hn r u hu

/-- **C34**, node level: for every history of calls, every stream a sampler hands out is the sampled
stream of that very partition; a partition is handed out at most once per start of the sampler; and
before the first start every call fails. -/
theorem C34_each_partition_once (rows : B → Nat) (input : Nat → List (Poll B)) (partitions : Nat)
    (os : List Op) :
    (∀ p s, (Op.execute p, some (.ok s)) ∈ (Node.new partitions).run rows input os →
        p < partitions ∧ s = (sample rows readyChunkLimit (input p)).1)
    ∧ ∀ p, handed p ((Node.new partitions).run rows input os) ≤ kicks os :=
  ⟨handed_is_sample rows input os _ (fun _ _ h => by cases h),
   fun p => by simpa [Node.new] using handed_le rows input p os (Node.new partitions)⟩

/-- After one start, the first execution of each partition succeeds with the sampled stream. -/
theorem C34_execute_after_start (rows : B → Nat) (input : Nat → List (Poll B)) (partitions p : Nat)
    (hp : p < partitions) (before : List Nat) (hb : p ∉ before) :
    ((Node.new partitions).run rows input (.kickOff :: before.map .execute ++ [.execute p])).getLast?
      = some (.execute p, some (.ok (sample rows readyChunkLimit (input p)).1)) := by
  have key : ∀ (before : List Nat) (n : Node B), p ∉ before → n.partitions = partitions →
      n.stream p = some (sample rows readyChunkLimit (input p)).1 →
      (n.run rows input (before.map .execute ++ [.execute p])).getLast?
        = some (.execute p, some (.ok (sample rows readyChunkLimit (input p)).1)) := by
    intro before
    induction before with
    | nil =>
      intro n _ hn hs
      simp [Node.run, Node.step, hn, Nat.not_le.mpr hp, hs]
    | cons q t ih =>
      intro n hq hn hs
      simp only [List.mem_cons, not_or] at hq
      have hne : (Node.run rows input ((n.step rows input (.execute q)).1)
          (t.map .execute ++ [.execute p])) ≠ [] := by
        cases t <;> simp [Node.run]
      simp only [List.map_cons, List.cons_append, Node.run]
      rw [List.getLast?_cons_of_ne_nil hne]
      apply ih _ hq.2
      · simp only [Node.step]; split
        · exact hn
        · split <;> exact hn
      · simp only [Node.step]; split
        · exact hs
        · split
          · exact hs
          · simp [hq.1, hs]
  simp only [List.cons_append, Node.run]
  have hne : (Node.run rows input (((Node.new partitions).step rows input .kickOff).1)
      (before.map .execute ++ [.execute p])) ≠ [] := by
    cases before <;> simp [Node.run]
  rw [List.getLast?_cons_of_ne_nil hne]
  exact key before _ hb rfl (by simp [Node.step, Node.new, hp])

/-- Non-vacuity: executing partition 1 twice after one start hands it out once; partition 5 of 2 and a
call before the start fail. -/
example : handed 1 ((Node.new 2).run (fun b : Nat => b) (fun p => [.item (.ok p)])
      [.execute 1, .kickOff, .execute 1, .execute 1, .execute 5]) = 1 := by decide

end DD.Sampler
