import Verif.Model.Demux
import Mathlib.Tactic.ByContra
/- Invariants of a worker connection. -/
namespace DD.Demux
variable {α : Type}

/-! ### The specification of what a partition's consumer has to receive -/

/-- A message the consumer side can deliver: its metadata decodes and names a requested partition. -/
def deliverable (c : Cfg α) : Wire α → Bool
  | .msg p _ _ => decide (c.start ≤ p ∧ p < c.start + c.n)
  | _ => false

def payloadOf (p : Nat) : Wire α → Option α
  | .msg q _ a => if q = p then some a else none
  | _ => none

/-- The error a non-deliverable item turns into. -/
def faultErr : Wire α → Err
  | .err e => e
  | .badMeta => .internal "flight metadata"
  | .msg _ _ _ => .internal "partition out of range"

/-- What the consumer of partition `start + i` must see for a given sequence of wire items: the payloads of its partition,
in order, up to the first faulty item, then that item's error. -/
def expected (c : Cfg α) (i : Nat) (ws : List (Wire α)) : List (Except Err α) :=
  ((ws.takeWhile (deliverable c)).filterMap (payloadOf (c.start + i))).map .ok
    ++ ((ws.dropWhile (deliverable c)).head?.map fun w => Except.error (faultErr w)).toList

/-- The same, taking a failed RPC into account. -/
def total (c : Cfg α) (i : Nat) : List (Except Err α) :=
  match c.connectErr with
  | some e => [.error e]
  | none => expected c i c.sent

theorem expected_nil (c : Cfg α) (i : Nat) : expected c i [] = [] := rfl

theorem expected_fault (c : Cfg α) (i : Nat) (w : Wire α) (ws : List (Wire α)) (h : deliverable c w = false) :
    expected c i (w :: ws) = [.error (faultErr w)] := by
  simp [expected, h]

theorem expected_ok (c : Cfg α) (i : Nat) (w : Wire α) (ws : List (Wire α)) (h : deliverable c w = true) :
    expected c i (w :: ws) = ((payloadOf (c.start + i) w).map Except.ok).toList ++ expected c i ws := by
  simp only [expected, List.takeWhile_cons, h, if_true, List.dropWhile_cons, List.filterMap_cons]
  cases payloadOf (c.start + i) w <;> simp

/-! ### Finite sums over the partitions -/

def sumN (n : Nat) (f : Nat → Nat) : Nat := ((List.range n).map f).sum

theorem sumN_succ (n : Nat) (f : Nat → Nat) : sumN (n + 1) f = sumN n f + f n := by
  simp [sumN, List.range_succ]

theorem sumN_congr (n : Nat) (f g : Nat → Nat) (h : ∀ i < n, f i = g i) : sumN n f = sumN n g := by
  induction n with
  | zero => rfl
  | succ n ih => rw [sumN_succ, sumN_succ, ih (fun i hi => h i (by omega)), h n (by omega)]

theorem sumN_upd {β : Type} (n : Nat) (g : β → Nat) (f : Nat → β) (i : Nat) (x : β) (hi : i < n) :
    sumN n (fun j => g (upd f i x j)) + g (f i) = sumN n (fun j => g (f j)) + g x := by
  induction n with
  | zero => omega
  | succ n ih =>
    rw [sumN_succ, sumN_succ]
    by_cases h : i = n
    · subst h
      have : sumN i (fun j => g (upd f i x j)) = sumN i (fun j => g (f j)) := by
        apply sumN_congr; intro j hj; simp [upd, Nat.ne_of_lt hj]
      rw [this]; simp [upd]; omega
    · have := ih (by omega)
      have h2 : upd f i x n = f n := by simp [upd, Ne.symm h]
      simp only [h2]; omega

theorem sumN_zero (n : Nat) (f : Nat → Nat) (h : sumN n f = 0) : ∀ i < n, f i = 0 := by
  induction n with
  | zero => intro i hi; omega
  | succ n ih =>
    rw [sumN_succ] at h
    intro i hi
    by_cases hn : i = n
    · subst hn; omega
    · exact ih (by omega) i (by omega)

theorem sumN_le (n : Nat) (f g : Nat → Nat) (h : ∀ i < n, f i ≤ g i) : sumN n f ≤ sumN n g := by
  induction n with
  | zero => exact Nat.le_refl _
  | succ n ih =>
    rw [sumN_succ, sumN_succ]
    have := ih (fun i hi => h i (by omega)); have := h n (by omega); omega

theorem le_sumN (n : Nat) (f : Nat → Nat) (i : Nat) (hi : i < n) : f i ≤ sumN n f := by
  induction n with
  | zero => omega
  | succ n ih =>
    rw [sumN_succ]
    by_cases h : i = n
    · subst h; omega
    · have := ih (by omega); omega

def ind (b : Bool) : Nat := if b then 1 else 0

def queueBytes (ch : Chan α) : Nat := (ch.queue.map Item.bytes).sum

/-- Bytes sitting in the queues of the partitions. -/
def buffered (c : Cfg α) (s : State α) : Nat := sumN c.n fun i => queueBytes (s.chans i)

/-! ### The invariant -/

def rest (c : Cfg α) (s : State α) (i : Nat) : List (Except Err α) :=
  match s.phase with
  | .waiting => total c i
  | .running => expected c i s.wire
  | .done => []

structure Inv (c : Cfg α) (s : State α) : Prop where
  holders : s.holders = sumN c.n fun i => ind (s.chans i).inner
  remaining : s.remaining = sumN c.n fun i => ind (! (s.chans i).dropped)
  innerFirst : ∀ i, (s.chans i).inner = true → (s.chans i).dropped = false
  aborted : s.aborted = true → s.holders = 0
  cancelled : s.cancelled = true → s.remaining = 0
  connected : s.phase = .running → c.connectErr = none
  stream : ∀ i < c.n, (s.chans i).inner = true →
    (s.chans i).out ++ (s.chans i).queue.map Item.result ++ rest c s i = total c i
  noQueue : ∀ i, (s.chans i).inner = false → (s.chans i).queue = []
  outPrefix : ∀ i, (s.chans i).out <+: total c i
  eos : ∀ i, (s.chans i).eos = true → (s.chans i).out = total c i
  suffix : s.wire <:+ c.sent
  bytes : buffered c s ≤ s.reserved
  bound : s.reserved = 0 ∨ ∃ p size a, Wire.msg p size a ∈ c.sent ∧ s.reserved < c.budget + size
  stopped : s.contacted = false → s.phase = .waiting
  unread : s.phase = .waiting → s.wire = c.sent

theorem init_inv (c : Cfg α) : Inv c (init c) := by
  have h1 : ∀ n : Nat, n = sumN n fun _ => 1 := by
    intro n; induction n with
    | zero => rfl
    | succ n ih => rw [sumN_succ]; omega
  have h0 : ∀ n : Nat, sumN n (fun _ => 0) = 0 := by
    intro n; induction n with
    | zero => rfl
    | succ n ih => rw [sumN_succ, ih]
  constructor
  case holders => exact h1 _
  case remaining => exact h1 _
  case bytes => simp [buffered, init, queueBytes, h0]
  case innerFirst => intro i _; rfl
  case aborted => intro h; exact absurd h (by simp [init])
  case cancelled => intro h; exact absurd h (by simp [init])
  case connected => intro h; exact absurd h (by simp [init])
  case stream => intro i _ _; simp [init, rest]
  case noQueue => intro i _; rfl
  case outPrefix => intro i; exact List.nil_prefix
  case eos => intro i h; exact absurd h (by simp [init])
  case suffix => exact List.suffix_rfl
  case bound => left; rfl
  case stopped => intro _; rfl
  case unread => intro _; rfl

theorem alive_of (c : Cfg α) (s : State α) (h : Inv c s) (i : Nat) (hi : i < c.n)
    (ha : (s.chans i).inner = true) : s.aborted = false ∧ s.cancelled = false := by
  constructor
  · by_contra hab
    have h0 := h.aborted (by simpa using hab)
    rw [h.holders] at h0
    have := sumN_zero _ _ h0 i hi
    simp [ind, ha] at this
  · by_contra hc
    have h0 := h.cancelled (by simpa using hc)
    rw [h.remaining] at h0
    have := sumN_zero _ _ h0 i hi
    simp [ind, h.innerFirst i ha] at this


/-! ### Preservation -/

theorem fanout_inv (c : Cfg α) (s : State α) (e : Err) (ws : List (Wire α)) (h : Inv c s)
    (hws : ws <:+ c.sent) (hco : Bool) (hco' : hco = true)
    (hrest : ∀ i < c.n, (s.chans i).inner = true → rest c s i = [.error e]) :
    Inv c (fanout { s with wire := ws, contacted := hco } e) := by
  constructor
  case holders =>
    show s.holders = _
    rw [h.holders]; apply sumN_congr; intro i _; simp only [fanout]; split <;> rfl
  case remaining =>
    show s.remaining = _
    rw [h.remaining]; apply sumN_congr; intro i _; simp only [fanout]; split <;> rfl
  case innerFirst =>
    intro i; simp only [fanout]; split
    · exact h.innerFirst i
    · exact h.innerFirst i
  case aborted => exact h.aborted
  case cancelled => exact h.cancelled
  case connected => intro hp; exact absurd hp (by simp [fanout])
  case stream =>
    intro i hi
    simp only [fanout]
    split
    · rename_i hin
      intro _
      have := h.stream i hi hin
      rw [hrest i hi hin] at this
      simpa [rest, Item.result] using this
    · rename_i hin; intro hin'; exact absurd hin' hin
  case noQueue =>
    intro i; simp only [fanout]; split
    · rename_i hin; intro hin'; exact absurd hin (by simpa using hin')
    · exact h.noQueue i
  case outPrefix => intro i; simp only [fanout]; split <;> exact h.outPrefix i
  case eos => intro i; simp only [fanout]; split <;> exact h.eos i
  case suffix => exact hws
  case bytes =>
    refine Nat.le_trans ?_ h.bytes
    apply sumN_le; intro i _; simp only [fanout]; split
    · simp [queueBytes, Item.bytes]
    · exact Nat.le_refl _
  case bound => exact h.bound
  case stopped => intro hc; exact absurd (show hco = false from hc) (by simp [hco'])
  case unread => intro hp; exact absurd hp (by simp [fanout])

theorem deliverable_of (c : Cfg α) (p size : Nat) (a : α) (h1 : ¬ p < c.start) (h2 : p - c.start < c.n) :
    deliverable c (.msg p size a) = true := by simp [deliverable]; omega

theorem task_inv (c : Cfg α) (s : State α) (h : Inv c s) : Inv c (taskStep c s) := by
  unfold taskStep
  split
  · exact h
  · split
    · exact h
    · rename_i hph
      split
      · rename_i hcan
        have hno : ∀ i < c.n, (s.chans i).inner = true → False := by
          intro i hi hin
          have := (alive_of c s h i hi hin).2
          rw [hcan] at this; simp at this
        exact { h with
          connected := fun hp => by simp at hp
          stream := fun i hi hin => (hno i hi hin).elim
          stopped := fun hc => by simp at hc
          unread := fun hp => by simp at hp }
      · split
        · split
          · rename_i e he
            exact fanout_inv c s e s.wire h h.suffix true rfl
              (fun i _ _ => by simp [rest, hph, total, he])
          · rename_i he
            exact { h with
              connected := fun _ => he
              stream := fun i hi hin => by
                have := h.stream i hi hin
                simp only [rest, hph] at this
                simp only [rest, h.unread hph]
                have ht : total c i = expected c i c.sent := by simp [total, he]
                rw [← ht]; exact this
              stopped := fun hc => by simp at hc
              unread := fun hp => by simp at hp }
        · exact h
    · rename_i hph
      have hcont : s.contacted = true := by
        by_contra hc
        have := h.stopped (by simpa using hc)
        rw [hph] at this; simp at this
      split
      · rename_i hcan
        have hno : ∀ i < c.n, (s.chans i).inner = true → False := by
          intro i hi hin
          have := (alive_of c s h i hi hin).2
          rw [hcan] at this; simp at this
        exact { h with
          connected := fun hp => by simp at hp
          stream := fun i hi hin => (hno i hi hin).elim
          stopped := fun hc => by rw [hcont] at hc; simp at hc
          unread := fun hp => by simp at hp }
      · split
        · exact h
        · rename_i hbud
          have hbud' : s.reserved < c.budget := by omega
          have hfan : ∀ w ws, s.wire = w :: ws → deliverable c w = false →
              Inv c (fanout { s with wire := ws } (faultErr w)) := by
            intro w ws hw hd
            have := fanout_inv c s (faultErr w) ws h
              (((List.suffix_cons w ws).trans (hw ▸ List.suffix_rfl)).trans h.suffix) s.contacted hcont
              (fun i _ _ => by simp [rest, hph, hw, expected_fault c i w ws hd])
            exact this
          split
          · rename_i hw
            exact { h with
              connected := fun hp => by simp at hp
              stream := fun i hi hin => by
                have := h.stream i hi hin
                simpa [rest, hph, hw, expected_nil] using this
              stopped := fun hc => by rw [hcont] at hc; simp at hc
              unread := fun hp => by simp at hp }
          · rename_i e ws hw; exact hfan _ ws hw rfl
          · rename_i ws hw; exact hfan _ ws hw rfl
          · rename_i pp size a ws hw
            split
            · rename_i hlt; exact hfan _ ws hw (by simp [deliverable]; omega)
            · rename_i hge
              split
              · rename_i hr
                have hd := deliverable_of c pp size a hge hr
                have hsuf : ws <:+ c.sent :=
                  ((List.suffix_cons (Wire.msg pp size a) ws).trans (hw ▸ List.suffix_rfl)).trans h.suffix
                have hmem : Wire.msg pp size a ∈ c.sent := by
                  apply h.suffix.subset; rw [hw]; simp
                have hexp : ∀ i, expected c i s.wire
                    = (if pp - c.start = i then [.ok a] else []) ++ expected c i ws := by
                  intro i
                  rw [hw, expected_ok c i _ ws hd]
                  congr 1
                  simp only [payloadOf]
                  by_cases hi : pp - c.start = i
                  · rw [if_pos (by omega), if_pos hi]; rfl
                  · rw [if_neg (by omega), if_neg hi]; rfl
                unfold send
                by_cases hin : (s.chans (pp - c.start)).inner = true
                · rw [if_pos hin]
                  constructor
                  case holders =>
                    show s.holders = _
                    rw [h.holders]; apply sumN_congr; intro i _; simp only [upd]; split
                    · rename_i hi; subst hi; rfl
                    · rfl
                  case remaining =>
                    show s.remaining = _
                    rw [h.remaining]; apply sumN_congr; intro i _; simp only [upd]; split
                    · rename_i hi; subst hi; rfl
                    · rfl
                  case innerFirst =>
                    intro i; simp only [upd]; split
                    · exact h.innerFirst _
                    · exact h.innerFirst i
                  case aborted => exact h.aborted
                  case cancelled => exact h.cancelled
                  case connected => exact h.connected
                  case stream =>
                    intro i hi
                    simp only [upd]
                    split
                    · rename_i hii
                      subst hii
                      intro hin'
                      have := h.stream _ hi hin'
                      simp only [rest, hph] at this ⊢
                      rw [hexp, if_pos rfl] at this
                      simpa [Item.result] using this
                    · rename_i hii
                      intro hin'
                      have := h.stream _ hi hin'
                      simp only [rest, hph] at this ⊢
                      rw [hexp, if_neg (fun e => hii e.symm)] at this
                      simpa using this
                  case noQueue =>
                    intro i; simp only [upd]; split
                    · intro hin'; rw [hin] at hin'; simp at hin'
                    · exact h.noQueue i
                  case outPrefix =>
                    intro i; simp only [upd]; split
                    · rename_i hi; subst hi; exact h.outPrefix _
                    · exact h.outPrefix i
                  case eos =>
                    intro i; simp only [upd]; split
                    · rename_i hi; subst hi; exact h.eos _
                    · exact h.eos i
                  case suffix => exact hsuf
                  case bytes =>
                    have := sumN_upd c.n queueBytes s.chans (pp - c.start)
                      { s.chans (pp - c.start) with
                        queue := (s.chans (pp - c.start)).queue ++ [Item.ok size a] } hr
                    have hb := h.bytes
                    rw [show queueBytes { s.chans (pp - c.start) with
                        queue := (s.chans (pp - c.start)).queue ++ [Item.ok size a] }
                        = queueBytes (s.chans (pp - c.start)) + size by
                      simp [queueBytes, Item.bytes]] at this
                    unfold buffered at hb ⊢
                    refine Nat.le_trans (Nat.le_of_eq ?_) (Nat.add_le_add_right hb size)
                    exact Nat.add_right_cancel (m := queueBytes (s.chans (pp - c.start)))
                      (this.trans (by omega))
                  case bound =>
                    right; exact ⟨pp, size, a, hmem, by show s.reserved + size < _; omega⟩
                  case stopped => intro hc; rw [hcont] at hc; simp at hc
                  case unread => intro hp; rw [hph] at hp; simp at hp
                · rw [if_neg hin]
                  exact { h with
                    stream := fun i hi hin' => by
                      have := h.stream i hi hin'
                      simp only [rest, hph] at this ⊢
                      rw [hexp, if_neg (fun e : pp - c.start = i => hin (by rw [e]; exact hin'))] at this
                      simpa using this
                    suffix := hsuf
                    unread := fun hp => by rw [hph] at hp; simp at hp }
              · rename_i hr
                exact hfan _ ws hw (by simp [deliverable]; omega)

theorem poll_inv (c : Cfg α) (s : State α) (i : Nat) (h : Inv c s) : Inv c (pollStep c s i) := by
  unfold pollStep
  split
  · rename_i hc
    obtain ⟨hi, hin, heos⟩ := hc
    simp only
    split
    · rename_i it q hq
      have hst := h.stream i hi hin
      rw [hq] at hst
      have hsum := sumN_upd c.n queueBytes s.chans i
        { s.chans i with queue := q, out := (s.chans i).out ++ [it.result] } hi
      have hqb : queueBytes (s.chans i) = it.bytes + (q.map Item.bytes).sum := by
        simp [queueBytes, hq]
      rw [hqb, show queueBytes { s.chans i with queue := q, out := (s.chans i).out ++ [it.result] }
        = (q.map Item.bytes).sum from rfl] at hsum
      have hb := h.bytes
      constructor
      case holders =>
        show s.holders = _
        rw [h.holders]; apply sumN_congr; intro j _; simp only [upd]; split
        · rename_i hj; subst hj; rfl
        · rfl
      case remaining =>
        show s.remaining = _
        rw [h.remaining]; apply sumN_congr; intro j _; simp only [upd]; split
        · rename_i hj; subst hj; rfl
        · rfl
      case innerFirst =>
        intro j; simp only [upd]; split
        · exact h.innerFirst _
        · exact h.innerFirst j
      case aborted => exact h.aborted
      case cancelled => exact h.cancelled
      case connected => exact h.connected
      case stream =>
        intro j hj; simp only [upd]; split
        · rename_i hji; subst hji; intro _
          simpa [rest] using hst
        · exact h.stream j hj
      case noQueue =>
        intro j; simp only [upd]; split
        · intro hin'; rw [hin] at hin'; simp at hin'
        · exact h.noQueue j
      case outPrefix =>
        intro j; simp only [upd]; split
        · rename_i hji; subst hji
          rw [← hst]; simp only [List.map_cons]
          exact ⟨q.map Item.result ++ rest c s j, by simp⟩
        · exact h.outPrefix j
      case eos =>
        intro j; simp only [upd]; split
        · intro he; rw [heos] at he; simp at he
        · exact h.eos j
      case suffix => exact h.suffix
      case bytes =>
        unfold buffered at hb ⊢
        refine Nat.le_sub_of_add_le (Nat.le_trans (Nat.le_of_eq ?_) hb)
        exact Nat.add_right_cancel (m := (q.map Item.bytes).sum) ((Nat.add_assoc _ _ _).trans hsum)
      case bound =>
        show s.reserved - it.bytes = 0 ∨ _
        rcases h.bound with hz | ⟨p, size, a, hm, hlt⟩
        · left; omega
        · right; exact ⟨p, size, a, hm, by show s.reserved - it.bytes < _; omega⟩
      case stopped => exact h.stopped
      case unread => exact h.unread
    · rename_i hq
      have hq' : (s.chans i).queue = [] := hq
      split
      · rename_i hdone
        have hal := alive_of c s h i hi hin
        have hph : s.phase = .done := by
          rcases hdone with hd | hd
          · exact hd
          · rw [show s.aborted = true from hd] at hal; simp at hal
        have hst := h.stream i hi hin
        rw [hq'] at hst
        simp only [rest, hph, List.map_nil, List.append_nil] at hst
        constructor
        case holders =>
          show s.holders = _
          rw [h.holders]; apply sumN_congr; intro j _; simp only [upd]; split
          · rename_i hj; subst hj; rfl
          · rfl
        case remaining =>
          show s.remaining = _
          rw [h.remaining]; apply sumN_congr; intro j _; simp only [upd]; split
          · rename_i hj; subst hj; rfl
          · rfl
        case innerFirst =>
          intro j; simp only [upd]; split
          · exact h.innerFirst _
          · exact h.innerFirst j
        case aborted => exact h.aborted
        case cancelled => exact h.cancelled
        case connected => exact h.connected
        case stream =>
          intro j hj; simp only [upd]; split
          · rename_i hji; subst hji; exact h.stream j hj
          · exact h.stream j hj
        case noQueue =>
          intro j; simp only [upd]; split
          · exact h.noQueue _
          · exact h.noQueue j
        case outPrefix =>
          intro j; simp only [upd]; split
          · rename_i hji; subst hji; exact h.outPrefix _
          · exact h.outPrefix j
        case eos =>
          intro j; simp only [upd]; split
          · rename_i hji; subst hji; intro _; exact hst
          · exact h.eos j
        case suffix => exact h.suffix
        case bytes =>
          refine Nat.le_trans (Nat.le_of_eq ?_) h.bytes
          apply sumN_congr; intro j _; simp only [upd]; split
          · rename_i hj; subst hj; rfl
          · rfl
        case bound => exact h.bound
        case stopped => exact h.stopped
        case unread => exact h.unread
      · exact { h with }
  · exact h

theorem dropInner_inv (c : Cfg α) (s : State α) (i : Nat) (h : Inv c s) : Inv c (dropInner c s i) := by
  unfold dropInner
  split
  · rename_i hc
    obtain ⟨hi, hin⟩ := hc
    have hsum := sumN_upd c.n (fun ch => ind ch.inner) s.chans i { s.chans i with queue := [], inner := false } hi
    have hbs := sumN_upd c.n queueBytes s.chans i { s.chans i with queue := [], inner := false } hi
    rw [show queueBytes { s.chans i with queue := [], inner := false } = 0 from rfl] at hbs
    have hb := h.bytes
    have hh := h.holders
    simp only [hin, ind, if_true] at hsum
    simp only [ind] at hh
    constructor
    case holders =>
      show s.holders - 1 = _
      simp only [ind]; simp only [Bool.false_eq_true, if_false] at hsum; omega
    case remaining =>
      show s.remaining = _
      rw [h.remaining]; apply sumN_congr; intro j _; simp only [upd]; split
      · rename_i hj; subst hj; rfl
      · rfl
    case innerFirst =>
      intro j; simp only [upd]; split
      · intro hf; simp at hf
      · exact h.innerFirst j
    case aborted =>
      intro ha
      show s.holders - 1 = 0
      simp only [Bool.or_eq_true, decide_eq_true_eq] at ha
      rcases ha with ha | ha
      · have := h.aborted ha; omega
      · exact ha
    case cancelled => exact h.cancelled
    case connected => exact h.connected
    case stream =>
      intro j hj; simp only [upd]; split
      · intro hf; simp at hf
      · exact h.stream j hj
    case noQueue =>
      intro j; simp only [upd]; split
      · intro _; rfl
      · exact h.noQueue j
    case outPrefix =>
      intro j; simp only [upd]; split
      · rename_i hji; subst hji; exact h.outPrefix _
      · exact h.outPrefix j
    case eos =>
      intro j; simp only [upd]; split
      · rename_i hji; subst hji; exact h.eos _
      · exact h.eos j
    case suffix => exact h.suffix
    case bytes =>
      unfold buffered at hb ⊢
      exact Nat.le_trans (Nat.le_trans (Nat.le_add_right _ _) (Nat.le_of_eq hbs)) hb
    case bound => exact h.bound
    case stopped => exact h.stopped
    case unread => exact h.unread
  · exact h

theorem dropCallback_inv (c : Cfg α) (s : State α) (i : Nat) (h : Inv c s) : Inv c (dropCallback c s i) := by
  unfold dropCallback
  split
  · rename_i hc
    obtain ⟨hi, hin, hdr⟩ := hc
    have hsum := sumN_upd c.n (fun ch => ind (! ch.dropped)) s.chans i { s.chans i with dropped := true } hi
    have hh := h.remaining
    simp only [hdr, ind, Bool.not_false, if_true, Bool.not_true, Bool.false_eq_true, if_false] at hsum
    simp only [ind] at hh
    constructor
    case remaining =>
      show s.remaining - 1 = _
      simp only [ind]; omega
    case holders =>
      show s.holders = _
      rw [h.holders]; apply sumN_congr; intro j _; simp only [upd]; split
      · rename_i hj; subst hj; rfl
      · rfl
    case innerFirst =>
      intro j; simp only [upd]; split
      · intro hf; simp [hin] at hf
      · exact h.innerFirst j
    case aborted => exact h.aborted
    case cancelled =>
      intro ha
      show s.remaining - 1 = 0
      simp only [Bool.or_eq_true, decide_eq_true_eq] at ha
      rcases ha with ha | ha
      · have := h.cancelled ha; omega
      · exact ha
    case connected => exact h.connected
    case stream =>
      intro j hj; simp only [upd]; split
      · intro hf; simp [hin] at hf
      · exact h.stream j hj
    case noQueue =>
      intro j; simp only [upd]; split
      · rename_i hji; subst hji; exact h.noQueue _
      · exact h.noQueue j
    case outPrefix =>
      intro j; simp only [upd]; split
      · rename_i hji; subst hji; exact h.outPrefix _
      · exact h.outPrefix j
    case eos =>
      intro j; simp only [upd]; split
      · rename_i hji; subst hji; exact h.eos _
      · exact h.eos j
    case suffix => exact h.suffix
    case bytes =>
      refine Nat.le_trans (Nat.le_of_eq ?_) h.bytes
      apply sumN_congr; intro j _; simp only [upd]; split
      · rename_i hj; subst hj; rfl
      · rfl
    case bound => exact h.bound
    case stopped => exact h.stopped
    case unread => exact h.unread
  · exact h

theorem step_inv (c : Cfg α) (s : State α) (st : Step) (hst : st ≠ .crash) (h : Inv c s) : Inv c (step c s st) := by
  cases st with
  | task => exact task_inv c s h
  | poll i => exact poll_inv c s i h
  | dropInner i => exact dropInner_inv c s i h
  | dropCallback i => exact dropCallback_inv c s i h
  | crash => exact absurd rfl hst

theorem run_inv (c : Cfg α) (steps : List Step) (hs : Step.crash ∉ steps) (s : State α) (h : Inv c s) :
    Inv c (run c s steps) := by
  induction steps generalizing s with
  | nil => exact h
  | cons st steps ih =>
    simp only [List.mem_cons, not_or] at hs
    exact ih hs.2 _ (step_inv c s st (fun e => hs.1 e.symm) h)

/-! ### Panics of the background task

A schedule in which the task panics is, as far as messages, bytes and drops go, one in which the task is not scheduled any more. -/

/-- An ended stream has nothing queued, and the task is over. -/
def EosInv (s : State α) : Prop := ∀ i, (s.chans i).eos = true → (s.chans i).queue = [] ∧ (s.phase = .done ∨ s.aborted = true)

theorem step_eosInv (c : Cfg α) (s : State α) (st : Step) (h : EosInv s) : EosInv (step c s st) := by
  have over : ∀ i, (s.chans i).eos = true → s.aborted = true ∨ s.phase = .done := fun i hi => (h i hi).2.symm
  cases st with
  | crash => exact fun i hi => ⟨(h i hi).1, .inl rfl⟩
  | task =>
    by_cases hall : s.aborted = true ∨ s.phase = .done
    · have : taskStep c s = s := by
        unfold taskStep
        split
        · rfl
        · rename_i hna
          rcases hall with ha | hd
          · exact absurd ha hna
          · rw [hd]
      simp only [step, this]; exact h
    · have hne : ∀ i, (s.chans i).eos = false := fun i => by
        cases hx : (s.chans i).eos with
        | false => rfl
        | true => exact absurd (over i hx) hall
      have hf : ∀ (s' : State α) (e : Err), s'.chans = s.chans → ∀ i, ((fanout s' e).chans i).eos = false := by
        intro s' e hc i
        simp only [fanout]
        split <;> (rw [hc]; exact hne i)
      have : ∀ i, ((taskStep c s).chans i).eos = false := by
        intro i
        unfold taskStep
        split
        · exact hne i
        · split
          · exact hne i
          · split
            · exact hne i
            · split
              · split
                · exact hf _ _ (by rfl) i
                · exact hne i
              · exact hne i
          · split
            · exact hne i
            · split
              · exact hne i
              · split
                · exact hne i
                · exact hf _ _ (by rfl) i
                · exact hf _ _ (by rfl) i
                · split
                  · exact hf _ _ (by rfl) i
                  · split
                    · simp only [send]
                      split
                      · simp only [upd]
                        split
                        · exact hne _
                        · exact hne i
                      · exact hne i
                    · exact hf _ _ (by rfl) i
      intro i hi
      simp only [step, this i] at hi
      cases hi
  | poll k =>
    simp only [step, pollStep]
    split
    · rename_i hk
      split
      · intro i hi
        simp only [upd] at hi ⊢
        split at hi
        · simp [hk.2.2] at hi
        · rename_i hik; rw [if_neg hik]; exact h i hi
      · rename_i hq
        split
        · rename_i hd
          intro i hi
          simp only [upd] at hi ⊢
          split at hi
          · rename_i hik; subst hik; rw [if_pos rfl]; exact ⟨hq, hd.imp id fun x => by simpa using x⟩
          · rename_i hik; rw [if_neg hik]; exact h i hi
        · exact h
    · exact h
  | dropInner k =>
    simp only [step, dropInner]
    split
    · intro i hi
      simp only [upd] at hi ⊢
      split at hi
      · rename_i hik; subst hik; rw [if_pos rfl]
        exact ⟨rfl, (h i hi).2.imp id fun x => by simp [x]⟩
      · rename_i hik; rw [if_neg hik]; exact ⟨(h i hi).1, (h i hi).2.imp id fun x => by simp [x]⟩
    · exact h
  | dropCallback k =>
    simp only [step, dropCallback]
    split
    · intro i hi
      simp only [upd] at hi ⊢
      split at hi
      · rename_i hik; subst hik; rw [if_pos rfl]; exact h i hi
      · rename_i hik; rw [if_neg hik]; exact h i hi
    · exact h

theorem run_eosInv (c : Cfg α) (steps : List Step) (s : State α) (h : EosInv s) : EosInv (run c s steps) := by
  induction steps generalizing s with
  | nil => exact h
  | cons st steps ih => exact ih _ (step_eosInv c s st h)

/-- The same but for whether the task has returned and the ends of streams that follow from it. -/
structure Agree (s t : State α) : Prop where
  reserved : s.reserved = t.reserved
  holders : s.holders = t.holders
  remaining : s.remaining = t.remaining
  cancelled : s.cancelled = t.cancelled
  aborted : s.aborted = t.aborted
  contacted : s.contacted = t.contacted
  wire : s.wire = t.wire
  out : ∀ i, (s.chans i).out = (t.chans i).out
  queue : ∀ i, (s.chans i).queue = (t.chans i).queue
  inner : ∀ i, (s.chans i).inner = (t.chans i).inner
  dropped : ∀ i, (s.chans i).dropped = (t.chans i).dropped

def isTask : Step → Bool
  | .task => true
  | .crash => true
  | _ => false

/-- A step of a task that has returned changes nothing. -/
theorem step_done (c : Cfg α) (s : State α) (st : Step) (hst : isTask st = true) (hd : s.phase = .done) : step c s st = s := by
  cases st with
  | task =>
    simp only [step, taskStep, hd]
    split <;> rfl
  | crash => simp only [step, ← hd]
  | poll i => cases hst
  | dropInner i => cases hst
  | dropCallback i => cases hst

theorem step_agree (c : Cfg α) (s t : State α) (st : Step) (hst : isTask st = false) (hs : EosInv s) (ht : EosInv t)
    (h : Agree s t) : Agree (step c s st) (step c t st) := by
  cases st with
  | task => cases hst
  | crash => cases hst
  | poll k =>
    have hidle : ∀ u : State α, (u.chans k).queue = [] → Agree u (step c u (.poll k)) := by
      intro u hq
      simp only [step, pollStep]
      split
      · rw [hq]
        dsimp only
        split
        · refine ⟨rfl, rfl, rfl, rfl, rfl, rfl, rfl, ?_, ?_, ?_, ?_⟩
          all_goals
            intro i
            simp only [upd]
            split
            · rename_i hik; subst hik; first | rfl | exact hq
            · rfl
        · exact ⟨rfl, rfl, rfl, rfl, rfl, rfl, rfl, fun _ => rfl, fun _ => rfl, fun _ => rfl, fun _ => rfl⟩
      · exact ⟨rfl, rfl, rfl, rfl, rfl, rfl, rfl, fun _ => rfl, fun _ => rfl, fun _ => rfl, fun _ => rfl⟩
    cases hq : (s.chans k).queue with
    | nil =>
      have hq' : (t.chans k).queue = [] := by rw [← h.queue k, hq]
      have h1 := hidle s hq
      have h2 := hidle t hq'
      exact ⟨h1.reserved.symm.trans (h.reserved.trans h2.reserved), h1.holders.symm.trans (h.holders.trans h2.holders),
        h1.remaining.symm.trans (h.remaining.trans h2.remaining), h1.cancelled.symm.trans (h.cancelled.trans h2.cancelled),
        h1.aborted.symm.trans (h.aborted.trans h2.aborted), h1.contacted.symm.trans (h.contacted.trans h2.contacted),
        h1.wire.symm.trans (h.wire.trans h2.wire), fun i => (h1.out i).symm.trans ((h.out i).trans (h2.out i)),
        fun i => (h1.queue i).symm.trans ((h.queue i).trans (h2.queue i)),
        fun i => (h1.inner i).symm.trans ((h.inner i).trans (h2.inner i)),
        fun i => (h1.dropped i).symm.trans ((h.dropped i).trans (h2.dropped i))⟩
    | cons x q =>
      have hq' : (t.chans k).queue = x :: q := by rw [← h.queue k, hq]
      have e1 : (s.chans k).eos = false := by
        cases hx : (s.chans k).eos with
        | false => rfl
        | true => have := (hs k hx).1; rw [hq] at this; cases this
      have e2 : (t.chans k).eos = false := by
        cases hx : (t.chans k).eos with
        | false => rfl
        | true => have := (ht k hx).1; rw [hq'] at this; cases this
      have hin := h.inner k
      simp only [step, pollStep, e1, e2, hq, hq', hin]
      split
      · refine ⟨by rw [h.reserved], h.holders, h.remaining, h.cancelled, h.aborted, h.contacted, h.wire, ?_, ?_, ?_, ?_⟩
        all_goals
          intro i
          simp only [upd]
          split
          · first | rfl | exact h.dropped k | exact congrArg (· ++ _) (h.out k)
          · first | exact h.out i | exact h.queue i | exact h.inner i | exact h.dropped i
      · exact h
  | dropInner k =>
    have hin := h.inner k
    simp only [step, dropInner, hin, h.holders, h.aborted]
    split
    · refine ⟨h.reserved, rfl, h.remaining, h.cancelled, rfl, h.contacted, h.wire, ?_, ?_, ?_, ?_⟩
      all_goals
        intro i
        simp only [upd]
        split
        · first | exact h.out k | rfl | exact h.dropped k
        · first | exact h.out i | exact h.queue i | exact h.inner i | exact h.dropped i
    · exact h
  | dropCallback k =>
    simp only [step, dropCallback, h.inner k, h.dropped k, h.remaining, h.cancelled]
    split
    · refine ⟨h.reserved, h.holders, rfl, rfl, h.aborted, h.contacted, h.wire, ?_, ?_, ?_, ?_⟩
      all_goals
        intro i
        simp only [upd]
        split
        · first | exact h.out k | exact h.queue k | exact h.inner k | rfl
        · first | exact h.out i | exact h.queue i | exact h.inner i | exact h.dropped i
    · exact h

theorem step_phase_done (c : Cfg α) (s : State α) (st : Step) (hd : s.phase = .done) : (step c s st).phase = .done := by
  cases hst : isTask st with
  | true => rw [step_done c s st hst hd]; exact hd
  | false =>
    cases st with
    | task => cases hst
    | crash => cases hst
    | poll k =>
      simp only [step, pollStep]
      split
      · split
        · exact hd
        · split <;> exact hd
      · exact hd
    | dropInner k => simp only [step, dropInner]; split <;> exact hd
    | dropCallback k => simp only [step, dropCallback]; split <;> exact hd

theorem run_agree (c : Cfg α) : ∀ (steps : List Step) (s t : State α), s.phase = .done → EosInv s → EosInv t → Agree s t →
    Agree (run c s steps) (run c t (steps.filter fun st => !isTask st))
  | [], _, _, _, _, _, h => h
  | st :: steps, s, t, hd, hs, ht, h => by
    have ih := run_agree c steps (step c s st)
    cases hst : isTask st with
    | true =>
      rw [List.filter_cons_of_neg (by simp [hst])]
      have := ih t (step_phase_done c s st hd) (step_eosInv c s st hs) ht (by rw [step_done c s st hst hd]; exact h)
      exact this
    | false =>
      rw [List.filter_cons_of_pos (by simp [hst])]
      exact ih (step c t st) (step_phase_done c s st hd) (step_eosInv c s st hs) (step_eosInv c t st ht)
        (step_agree c s t st hst hs ht h)

theorem first_mem : ∀ {l : List Step}, Step.crash ∈ l → ∃ a b, l = a ++ .crash :: b ∧ Step.crash ∉ a
  | [], h => by cases h
  | st :: l, h => by
    by_cases e : st = .crash
    · subst e; exact ⟨[], l, rfl, by simp⟩
    · obtain ⟨a, b, rfl, ha⟩ := first_mem (l := l) (by simpa [Ne.symm e] using h)
      exact ⟨st :: a, b, rfl, by simp [Ne.symm e, ha]⟩

/-- Every schedule agrees with one in which the task does not panic. -/
theorem without_panic (c : Cfg α) (steps : List Step) : ∃ steps', Step.crash ∉ steps' ∧ (∀ i, Step.poll i ∉ steps → Step.poll i ∉ steps')
    ∧ Agree (run c (init c) steps) (run c (init c) steps') := by
  by_cases hc : Step.crash ∈ steps
  · obtain ⟨a, b, rfl, ha⟩ := first_mem hc
    refine ⟨a ++ b.filter fun st => !isTask st, ?_, ?_, ?_⟩
    · intro h
      rcases List.mem_append.1 h with h | h
      · exact ha h
      · have := (List.mem_filter.1 h).2
        simp [isTask] at this
    · intro i hi h
      rcases List.mem_append.1 h with h | h
      · exact hi (List.mem_append_left _ h)
      · exact hi (List.mem_append_right _ (List.mem_cons_of_mem _ (List.mem_filter.1 h).1))
    · have he : EosInv (run c (init c) a) := run_eosInv c a _ (fun i hi => by simp [init] at hi)
      have hr : ∀ (x y : List Step) (s : State α), run c s (x ++ y) = run c (run c s x) y := fun x y s => List.foldl_append
      rw [hr, hr]
      refine run_agree c b _ _ rfl (step_eosInv c _ .crash he) he ?_
      exact ⟨rfl, rfl, rfl, rfl, rfl, rfl, rfl, fun _ => rfl, fun _ => rfl, fun _ => rfl, fun _ => rfl⟩
  · exact ⟨steps, hc, fun _ h => h, ⟨rfl, rfl, rfl, rfl, rfl, rfl, rfl, fun _ => rfl, fun _ => rfl, fun _ => rfl, fun _ => rfl⟩⟩

end DD.Demux
