import Verif.Model.Pool
import Verif.Props.Routing
import Mathlib.Tactic.ByContra
/-
C07: one request per producer task, each partition stream consumed at most once and by who asked for it.
-/
namespace DD.Pool

/-- The worker answers with one stream per requested partition, in order (what `impl_execute_task.rs:46-57` and the
demultiplexer of C29 provide), or with an error. -/
def Honest (srv : Server) : Prop :=
  ∀ t lo hi streams, srv t lo hi = .ok streams → streams = (List.range (hi - lo)).map fun j => Stream.mk t (lo + j)

def Taken (s : State) (st : Stream) : Prop := ∃ k, s.outcome k = some (.ok st)

/-- A slot is untouched and its stream was handed to nobody, or emptied and its stream was handed out. -/
def GroupOk (srv : Server) (s : State) (t lo hi : Nat) : Group → Prop
  | .error e => srv t lo hi = .error e
  | .ok sl => sl.length = hi - lo ∧ ∀ j < hi - lo,
      (sl[j]? = some (some ⟨t, lo + j⟩) ∧ ¬ Taken s ⟨t, lo + j⟩) ∨ (sl[j]? = some none ∧ Taken s ⟨t, lo + j⟩)

structure Inv (srv : Server) (s : State) : Prop where
  reqNodup : (s.requests.map (·.1)).Nodup
  reqInit : ∀ t lo hi, (t, lo, hi) ∈ s.requests → (s.groups t).isSome = true
  reqCall : ∀ t lo hi, (t, lo, hi) ∈ s.requests → ∃ c ∈ s.handles, c.task = t ∧ c.lo = lo ∧ c.hi = hi
  slots : ∀ t g, s.groups t = some g → ∃ lo hi, (t, lo, hi) ∈ s.requests ∧ GroupOk srv s t lo hi g
  handlesInit : ∀ c ∈ s.handles, (s.groups c.task).isSome = true
  outcomeLt : ∀ k r, s.outcome k = some r → k < s.handles.length
  unique : ∀ k k' st, s.outcome k = some (.ok st) → s.outcome k' = some (.ok st) → k = k'
  known : ∀ st, Taken s st → (s.groups st.task).isSome = true
  /-- what each first poll returned -/
  result : ∀ (k : Nat) (c : Call) (r : Except Err Stream), s.handles[k]? = some c → s.outcome k = some r → c.lo ≤ c.partition →
    ∃ lo hi, (c.task, lo, hi) ∈ s.requests ∧
      match r with
      | .ok st => c.partition - c.lo < hi - lo ∧ st = ⟨c.task, lo + (c.partition - c.lo)⟩
      | .error e => srv c.task lo hi = .error e ∨ hi - lo ≤ c.partition - c.lo ∨
          (∃ k', k' ≠ k ∧ s.outcome k' = some (.ok ⟨c.task, lo + (c.partition - c.lo)⟩))
  /-- who holds a stream asked for its task -/
  holder : ∀ (k : Nat) (c : Call) (st : Stream), s.handles[k]? = some c → s.outcome k = some (.ok st) → st.task = c.task

theorem init_inv (srv : Server) : Inv srv {} := by
  constructor <;> simp [Taken]

theorem execute_inv (srv : Server) (hsrv : Honest srv) (w n : Nat) (s s' : State) (c : Call) (h : Inv srv s)
    (he : execute srv w n s c = .ok s') : Inv srv s' := by
  unfold execute at he
  split at he
  · simp at he
  · split at he
    · simp at he
    · simp only [Except.ok.injEq] at he
      subst he
      have hgetold : ∀ (k : Nat) (c' : Call) (r : Except Err Stream), (s.handles ++ [c])[k]? = some c' → s.outcome k = some r →
          s.handles[k]? = some c' := by
        intro k c' r hk hr
        have := h.outcomeLt k r hr
        rw [List.getElem?_append_left this] at hk
        exact hk
      cases hg : s.groups c.task with
      | some g =>
        simp only
        exact { h with
          reqCall := fun t lo hi hm => by
            obtain ⟨c', hc', h1⟩ := h.reqCall t lo hi hm
            exact ⟨c', by simp [hc'], h1⟩
          handlesInit := fun c' hc' => by
            simp only [List.mem_append, List.mem_singleton] at hc'
            rcases hc' with hc' | rfl
            · exact h.handlesInit c' hc'
            · simp [hg]
          outcomeLt := fun k r hk => by have := h.outcomeLt k r hk; simp; omega
          result := fun k c' r hk hr => h.result k c' r (hgetold k c' r hk hr) hr
          holder := fun k c' st hk hr => h.holder k c' st (hgetold k c' _ hk hr) hr }
      | none =>
        simp only
        have hnotreq : ∀ lo hi, (c.task, lo, hi) ∉ s.requests := by
          intro lo hi hm
          have := h.reqInit _ lo hi hm
          rw [hg] at this; simp at this
        constructor
        case reqNodup =>
          show ((s.requests ++ [(c.task, c.lo, c.hi)]).map (·.1)).Nodup
          rw [List.map_append, List.nodup_append]
          refine ⟨h.reqNodup, by simp, ?_⟩
          intro a ha b hb hab
          simp only [List.map_cons, List.map_nil, List.mem_singleton] at hb
          subst hb; subst hab
          obtain ⟨⟨t, lo, hi⟩, hm, rfl⟩ := List.mem_map.mp ha
          exact hnotreq lo hi hm
        case reqInit =>
          intro t lo hi hm
          simp only
          split
          · rfl
          · rename_i hne
            simp only [List.mem_append, List.mem_singleton, Prod.mk.injEq] at hm
            rcases hm with hm | hm
            · exact h.reqInit t lo hi hm
            · exact absurd hm.1 hne
        case reqCall =>
          intro t lo hi hm
          simp only [List.mem_append, List.mem_singleton, Prod.mk.injEq] at hm
          rcases hm with hm | ⟨rfl, rfl, rfl⟩
          · obtain ⟨c', hc', h1⟩ := h.reqCall t lo hi hm
            exact ⟨c', by simp [hc'], h1⟩
          · exact ⟨c, by simp, rfl, rfl, rfl⟩
        case slots =>
          intro t g hgt
          simp only at hgt
          split at hgt
          · rename_i heq
            subst heq
            refine ⟨c.lo, c.hi, by simp, ?_⟩
            simp only [Option.some.injEq] at hgt
            subst hgt
            cases hs : srv c.task c.lo c.hi with
            | error e => simp [Except.map, GroupOk, hs]
            | ok streams =>
              have := hsrv _ _ _ _ hs
              simp only [Except.map, GroupOk, this, List.length_map, List.length_range, true_and]
              intro j hj
              left
              refine ⟨by simp [hj], ?_⟩
              intro ht
              have := h.known _ ht
              simp [hg] at this
          · obtain ⟨lo, hi, hm, hok⟩ := h.slots t g hgt
            exact ⟨lo, hi, by simp [hm], hok⟩
        case handlesInit =>
          intro c' hc'
          simp only
          split
          · rfl
          · rename_i hne
            simp only [List.mem_append, List.mem_singleton] at hc'
            rcases hc' with hc' | rfl
            · exact h.handlesInit c' hc'
            · exact absurd rfl hne
        case outcomeLt => intro k r hk; have := h.outcomeLt k r hk; simp; omega
        case unique => exact h.unique
        case known =>
          intro st hst
          simp only
          split
          · rfl
          · exact h.known st hst
        case result =>
          intro k c' r hk hr hle
          obtain ⟨lo, hi, hm, h1⟩ := h.result k c' r (hgetold k c' r hk hr) hr hle
          exact ⟨lo, hi, by simp [hm], h1⟩
        case holder => intro k c' st hk hr; exact h.holder k c' st (hgetold k c' _ hk hr) hr

theorem poll_inv (srv : Server) (s : State) (k : Nat) (h : Inv srv s) : Inv srv (poll s k) := by
  unfold poll
  split
  · rename_i c hk ho
    have hlt : k < s.handles.length := by
      by_contra hge
      rw [List.getElem?_eq_none (by omega)] at hk; simp at hk
    -- an error outcome leaves the groups as they are
    have herr : ∀ e : Err, (c.lo ≤ c.partition → ∃ lo hi, (c.task, lo, hi) ∈ s.requests ∧
          (srv c.task lo hi = .error e ∨ hi - lo ≤ c.partition - c.lo ∨
          (∃ k', k' ≠ k ∧ s.outcome k' = some (.ok ⟨c.task, lo + (c.partition - c.lo)⟩)))) →
        Inv srv { s with outcome := fun j => if j = k then some (.error e) else s.outcome j } := by
      intro e he
      have htk : ∀ st, Taken { s with outcome := fun j => if j = k then some (.error e) else s.outcome j } st ↔ Taken s st := by
        intro st
        constructor
        · rintro ⟨k', hk'⟩
          simp only at hk'
          split at hk'
          · simp at hk'
          · exact ⟨k', hk'⟩
        · rintro ⟨k', hk'⟩
          refine ⟨k', ?_⟩
          simp only
          rw [if_neg]
          · exact hk'
          · intro e'; subst e'; rw [ho] at hk'; simp at hk'
      exact { h with
        slots := fun t g hg => by
          obtain ⟨lo, hi, hm, hok⟩ := h.slots t g hg
          refine ⟨lo, hi, hm, ?_⟩
          cases g with
          | error e' => exact hok
          | ok sl =>
            refine ⟨hok.1, fun j hj => ?_⟩
            rw [htk]; exact hok.2 j hj
        outcomeLt := fun j r hj => by
          simp only at hj
          split at hj
          · rename_i e'; subst e'; exact hlt
          · exact h.outcomeLt j r hj
        unique := fun j j' st hj hj' => by
          simp only at hj hj'
          split at hj
          · simp at hj
          · split at hj'
            · simp at hj'
            · exact h.unique j j' st hj hj'
        known := fun st hst => h.known st ((htk st).mp hst)
        result := fun j c' r hj hr hle => by
          simp only at hr
          split at hr
          · rename_i e'; subst e'
            rw [hk] at hj
            simp only [Option.some.injEq] at hj hr
            subst hj; subst hr
            obtain ⟨lo, hi, hm, h1⟩ := he hle
            refine ⟨lo, hi, hm, ?_⟩
            rcases h1 with h1 | h1 | ⟨k', hne, h1⟩
            · exact Or.inl h1
            · exact Or.inr (Or.inl h1)
            · refine Or.inr (Or.inr ⟨k', hne, ?_⟩)
              simp only; rw [if_neg hne]; exact h1
          · obtain ⟨lo, hi, hm, h1⟩ := h.result j c' r hj hr hle
            refine ⟨lo, hi, hm, ?_⟩
            cases r with
            | ok st => exact h1
            | error e' =>
              rcases h1 with h1 | h1 | ⟨k', hne, h1⟩
              · exact Or.inl h1
              · exact Or.inr (Or.inl h1)
              · refine Or.inr (Or.inr ⟨k', hne, ?_⟩)
                simp only; rw [if_neg]
                · exact h1
                · intro e'; subst e'; rw [ho] at h1; simp at h1
        holder := fun j c' st hj hr => by
          simp only at hr
          split at hr
          · simp at hr
          · exact h.holder j c' st hj hr }
    simp only
    split
    · exact herr _ (fun hle => by omega)
    · rename_i hge
      split
      · exact h
      · rename_i e hg
        refine herr _ (fun _ => ?_)
        obtain ⟨lo, hi, hm, hok⟩ := h.slots _ _ hg
        exact ⟨lo, hi, hm, Or.inl hok⟩
      · rename_i sl hg
        obtain ⟨lo, hi, hm, hlen, hok⟩ := h.slots _ _ hg
        split
        · rename_i hnone
          refine herr _ (fun _ => ⟨lo, hi, hm, Or.inr (Or.inl ?_)⟩)
          rw [← hlen]; exact List.getElem?_eq_none_iff.mp hnone
        · rename_i hsome
          refine herr _ (fun _ => ⟨lo, hi, hm, Or.inr (Or.inr ?_)⟩)
          have hj : c.partition - c.lo < hi - lo := by
            rw [← hlen]; exact (List.getElem?_eq_some_iff.mp hsome).1
          rcases hok _ hj with h1 | ⟨_, k', hk'⟩
          · rw [hsome] at h1; simp at h1
          · refine ⟨k', ?_, hk'⟩
            intro e'; subst e'; rw [ho] at hk'; simp at hk'
        · rename_i st hst
          have hj : c.partition - c.lo < hi - lo := by
            rw [← hlen]; exact (List.getElem?_eq_some_iff.mp hst).1
          obtain ⟨hst', hnt⟩ : st = ⟨c.task, lo + (c.partition - c.lo)⟩ ∧ ¬ Taken s ⟨c.task, lo + (c.partition - c.lo)⟩ := by
            rcases hok _ hj with ⟨h1, h2⟩ | ⟨h1, _⟩
            · rw [hst] at h1; simp only [Option.some.injEq] at h1; exact ⟨h1, h2⟩
            · rw [hst] at h1; simp at h1
          subst hst'
          have htk : ∀ st', Taken { s with
              groups := fun t => if t = c.task then some (.ok (sl.set (c.partition - c.lo) none)) else s.groups t
              outcome := fun j => if j = k then some (.ok ⟨c.task, lo + (c.partition - c.lo)⟩) else s.outcome j } st'
              ↔ Taken s st' ∨ st' = ⟨c.task, lo + (c.partition - c.lo)⟩ := by
            intro st'
            constructor
            · rintro ⟨k', hk'⟩
              simp only at hk'
              split at hk'
              · right; simp at hk'; exact hk'.symm
              · left; exact ⟨k', hk'⟩
            · rintro (⟨k', hk'⟩ | rfl)
              · refine ⟨k', ?_⟩
                simp only
                rw [if_neg]
                · exact hk'
                · intro e'; subst e'; rw [ho] at hk'; simp at hk'
              · exact ⟨k, by simp⟩
          have hisSome : ∀ t, (s.groups t).isSome = true →
              ((if t = c.task then some (.ok (sl.set (c.partition - c.lo) none)) else s.groups t : Option Group)).isSome = true := by
            intro t ht; split
            · rfl
            · exact ht
          constructor
          case reqNodup => exact h.reqNodup
          case reqInit => intro t lo' hi' hm'; exact hisSome t (h.reqInit t lo' hi' hm')
          case reqCall => exact h.reqCall
          case slots =>
            intro t g hgt
            simp only at hgt
            split at hgt
            · rename_i heq; subst heq
              simp only [Option.some.injEq] at hgt
              subst hgt
              refine ⟨lo, hi, hm, by simp [hlen], fun j hj' => ?_⟩
              rw [htk]
              by_cases hjj : j = c.partition - c.lo
              · subst hjj
                right
                refine ⟨by rw [List.getElem?_set_self (by omega)], Or.inr rfl⟩
              · rw [List.getElem?_set_ne (fun e => hjj e.symm)]
                rcases hok j hj' with ⟨h1, h2⟩ | ⟨h1, h2⟩
                · left
                  refine ⟨h1, ?_⟩
                  rintro (h3 | h3)
                  · exact h2 h3
                  · simp only [Stream.mk.injEq, true_and] at h3; omega
                · right; exact ⟨h1, Or.inl h2⟩
            · rename_i hne
              obtain ⟨lo', hi', hm', hok'⟩ := h.slots t g hgt
              refine ⟨lo', hi', hm', ?_⟩
              cases g with
              | error e' => exact hok'
              | ok sl' =>
                refine ⟨hok'.1, fun j hj' => ?_⟩
                rw [htk]
                rcases hok'.2 j hj' with ⟨h1, h2⟩ | ⟨h1, h2⟩
                · left
                  refine ⟨h1, ?_⟩
                  rintro (h3 | h3)
                  · exact h2 h3
                  · simp only [Stream.mk.injEq] at h3; exact hne h3.1
                · right; exact ⟨h1, Or.inl h2⟩
          case handlesInit => intro c' hc'; exact hisSome _ (h.handlesInit c' hc')
          case outcomeLt =>
            intro j r hj'
            simp only at hj'
            split at hj'
            · rename_i e'; subst e'; exact hlt
            · exact h.outcomeLt j r hj'
          case unique =>
            intro j j' st' hj1 hj2
            simp only at hj1 hj2
            split at hj1
            · rename_i e1
              split at hj2
              · rename_i e2; omega
              · simp only [Option.some.injEq, Except.ok.injEq] at hj1
                subst hj1
                exact absurd ⟨j', hj2⟩ hnt
            · split at hj2
              · simp only [Option.some.injEq, Except.ok.injEq] at hj2
                subst hj2
                exact absurd ⟨j, hj1⟩ hnt
              · exact h.unique j j' st' hj1 hj2
          case known =>
            intro st' hst'
            rcases (htk st').mp hst' with h1 | h1
            · exact hisSome _ (h.known st' h1)
            · subst h1; simp
          case result =>
            intro j c' r hj' hr hle
            simp only at hr
            split at hr
            · rename_i e'; subst e'
              rw [hk] at hj'
              simp only [Option.some.injEq] at hj' hr
              subst hj'; subst hr
              exact ⟨lo, hi, hm, hj, rfl⟩
            · obtain ⟨lo', hi', hm', h1⟩ := h.result j c' r hj' hr hle
              refine ⟨lo', hi', hm', ?_⟩
              cases r with
              | ok st' => exact h1
              | error e' =>
                rcases h1 with h1 | h1 | ⟨k', hne, h1⟩
                · exact Or.inl h1
                · exact Or.inr (Or.inl h1)
                · refine Or.inr (Or.inr ⟨k', hne, ?_⟩)
                  simp only; rw [if_neg]
                  · exact h1
                  · intro e'; subst e'; rw [ho] at h1; simp at h1
          case holder =>
            intro j c' st' hj' hr
            simp only at hr
            split at hr
            · rename_i e'; subst e'
              rw [hk] at hj'
              simp only [Option.some.injEq, Except.ok.injEq] at hj' hr
              subst hj'; subst hr; rfl
            · exact h.holder j c' st' hj' hr
  · exact h

theorem run_inv (srv : Server) (hsrv : Honest srv) (w n : Nat) (ops : List Op) : Inv srv (run srv w n ops) := by
  have key : ∀ (ops : List Op) (s : State), Inv srv s → Inv srv (ops.foldl (step srv w n) s) := by
    intro ops
    induction ops with
    | nil => intro s h; exact h
    | cons op ops ih =>
      intro s h
      apply ih
      cases op with
      | execute c =>
        simp only [step]
        cases he : execute srv w n s c with
        | ok s' => exact execute_inv srv hsrv w n s s' c h he
        | error e => exact h
      | poll k => exact poll_inv srv s k h
  exact key ops _ (init_inv srv)

/-- **C07** At most one request is sent to each producer task, over any history of calls and polls. -/
theorem C07_one_request_per_task (srv : Server) (hsrv : Honest srv) (w n : Nat) (ops : List Op) :
    ((run srv w n ops).requests.map (·.1)).Nodup :=
  (run_inv srv hsrv w n ops).reqNodup

/-- **C07** Only existing tasks with a known worker are asked: every request and every returned stream belongs to a task
below the number of workers and of input tasks, over any history of calls and polls. -/
theorem C07_only_existing_tasks (srv : Server) (w n : Nat) (ops : List Op) :
    (∀ t lo hi, (t, lo, hi) ∈ (run srv w n ops).requests → t < w ∧ t < n) ∧
    (∀ c ∈ (run srv w n ops).handles, c.task < w ∧ c.task < n) := by
  have key : ∀ (ops : List Op) (s : State),
      ((∀ t lo hi, (t, lo, hi) ∈ s.requests → t < w ∧ t < n) ∧ ∀ c ∈ s.handles, c.task < w ∧ c.task < n) →
      ((∀ t lo hi, (t, lo, hi) ∈ (ops.foldl (step srv w n) s).requests → t < w ∧ t < n) ∧
        ∀ c ∈ (ops.foldl (step srv w n) s).handles, c.task < w ∧ c.task < n) := by
    intro ops
    induction ops with
    | nil => intro s h; exact h
    | cons op ops ih =>
      intro s h
      refine ih _ ?_
      cases op with
      | poll k =>
        have h1 : (poll s k).requests = s.requests ∧ (poll s k).handles = s.handles := by
          unfold poll
          split
          · split
            · exact ⟨rfl, rfl⟩
            · split
              · exact ⟨rfl, rfl⟩
              · exact ⟨rfl, rfl⟩
              · split <;> exact ⟨rfl, rfl⟩
          · exact ⟨rfl, rfl⟩
        show (∀ t lo hi, (t, lo, hi) ∈ (poll s k).requests → _) ∧ ∀ c ∈ (poll s k).handles, _
        rw [h1.1, h1.2]; exact h
      | execute c =>
        simp only [step]
        cases he : execute srv w n s c with
        | error e => exact h
        | ok s' =>
          unfold execute at he
          split at he
          · simp at he
          · split at he
            · simp at he
            · simp only [Except.ok.injEq] at he
              subst he
              rename_i hw hn
              have hc : c.task < w ∧ c.task < n := ⟨by omega, by omega⟩
              refine ⟨?_, ?_⟩
              · intro t lo hi hm
                cases hg : s.groups c.task with
                | some g => rw [hg] at hm; exact h.1 t lo hi hm
                | none =>
                  rw [hg] at hm
                  simp only [List.mem_append, List.mem_singleton, Prod.mk.injEq] at hm
                  rcases hm with hm | ⟨rfl, _, _⟩
                  · exact h.1 t lo hi hm
                  · exact hc
              · intro c' hm
                have hm : c' ∈ s.handles ++ [c] := by
                  cases hg : s.groups c.task with
                  | some g => rw [hg] at hm; exact hm
                  | none => rw [hg] at hm; exact hm
                simp only [List.mem_append, List.mem_singleton] at hm
                rcases hm with hm | rfl
                · exact h.2 c' hm
                · exact hc
  exact key ops {} ⟨fun _ _ _ h => by simp at h, fun _ h => by simp at h⟩

/-- **C07** Asking for a task that does not exist, or that has no worker, is an error of the call itself. -/
theorem C07_missing_task_is_an_error (srv : Server) (w n : Nat) (s : State) (c : Call) :
    (∃ e, execute srv w n s c = .error e) ↔ w ≤ c.task ∨ n ≤ c.task := by
  unfold execute
  constructor
  · rintro ⟨e, he⟩
    split at he
    · left; omega
    · split at he
      · right; omega
      · simp at he
  · intro h
    split
    · exact ⟨_, rfl⟩
    · split
      · exact ⟨_, rfl⟩
      · omega

/-- **C07** No stream is handed to two callers. -/
theorem C07_stream_handed_once (srv : Server) (hsrv : Honest srv) (w n : Nat) (ops : List Op) (k k' : Nat) (st : Stream)
    (h1 : (run srv w n ops).outcome k = some (.ok st)) (h2 : (run srv w n ops).outcome k' = some (.ok st)) : k = k' :=
  (run_inv srv hsrv w n ops).unique k k' st h1 h2

/-- All callers of one pool use the same range for the same producer task. -/
def SameRanges (calls : List Call) : Prop :=
  ∀ c ∈ calls, ∀ c' ∈ calls, c.task = c'.task → c.lo = c'.lo ∧ c.hi = c'.hi

/-- **C07** If all callers use the same range for the same producer task and ask for partitions inside it, the outcome of
a first poll is: the stream of the very partition asked for; or the worker's own error; or an error because another
caller already took exactly that stream. -/
theorem C07_caller_gets_its_partition (srv : Server) (hsrv : Honest srv) (w n : Nat) (ops : List Op)
    (hr : SameRanges (run srv w n ops).handles) (k : Nat) (c : Call) (r : Except Err Stream)
    (hk : (run srv w n ops).handles[k]? = some c) (hin : c.lo ≤ c.partition ∧ c.partition < c.hi)
    (ho : (run srv w n ops).outcome k = some r) :
    match r with
    | .ok st => st = ⟨c.task, c.partition⟩
    | .error e => srv c.task c.lo c.hi = .error e ∨
        ∃ k', k' ≠ k ∧ (run srv w n ops).outcome k' = some (.ok ⟨c.task, c.partition⟩) := by
  have h := run_inv srv hsrv w n ops
  obtain ⟨lo, hi, hm, h1⟩ := h.result k c r hk ho hin.1
  obtain ⟨c', hc', ht, hlo, hhi⟩ := h.reqCall _ _ _ hm
  have hc : c ∈ (run srv w n ops).handles := List.mem_of_getElem? hk
  obtain ⟨e1, e2⟩ := hr c hc c' hc' ht.symm
  have e3 : lo = c.lo := by omega
  have e4 : hi = c.hi := by omega
  subst e3; subst e4
  have e5 : c.lo + (c.partition - c.lo) = c.partition := by omega
  cases r with
  | ok st => simp only [e5] at h1; exact h1.2
  | error e =>
    rcases h1 with h1 | h1 | h1
    · exact Or.inl h1
    · omega
    · rw [e5] at h1; exact Or.inr h1

/-- The pool calls a boundary makes for one remote pull. -/
def callOf (r : Pull) : Call := ⟨r.lo, r.hi, r.task, r.partition⟩

/-- **C07** The hypotheses of `C07_caller_gets_its_partition` hold for every history of `execute` calls a coalesce boundary
makes on behalf of one consumer task: same range for all its calls, and the asked partition lies inside it. -/
theorem C07_coalesce_calls (e : CoalesceExec) (ctx : TaskCtx) (qs : List Nat) :
    let calls := qs.flatMap fun q => match e.execute ctx q with | .ok pulls => pulls.map callOf | .error _ => []
    SameRanges calls ∧ ∀ c ∈ calls, c.lo ≤ c.partition ∧ c.partition < c.hi := by
  intro calls
  have key : ∀ c ∈ calls, c.lo = 0 ∧ c.hi = e.outPartitions / max (divCeil e.inputTasks ctx.count) 1 ∧
      c.partition < c.hi := by
    intro c hc
    simp only [calls, List.mem_flatMap] at hc
    obtain ⟨q, _, hq⟩ := hc
    unfold CoalesceExec.execute at hq
    simp only at hq
    split at hq
    · rename_i pulls hp
      split at hp
      · simp at hp
      · split at hp
        · simp at hp
        · rename_i hne
          split at hp
          · simp only [Except.ok.injEq] at hp; subst hp; simp at hq
          · split at hp
            · simp at hp
            · simp only [Except.ok.injEq] at hp
              subst hp
              simp only [List.map_cons, List.map_nil, List.mem_singleton] at hq
              subst hq
              exact ⟨rfl, rfl, Nat.mod_lt _ (Nat.pos_of_ne_zero hne)⟩
    · simp at hq
  refine ⟨fun c hc c' hc' _ => ?_, fun c hc => ?_⟩
  · have h1 := key c hc; have h2 := key c' hc'; omega
  · have h1 := key c hc; omega

/-- **C07** The same for shuffle and broadcast boundaries. -/
theorem C07_fan_calls (e : FanExec) (ctx : TaskCtx) (qs : List Nat) (hqs : ∀ q ∈ qs, q < e.outPartitions) :
    let calls := qs.flatMap fun q => (e.execute ctx q).map callOf
    SameRanges calls ∧ ∀ c ∈ calls, c.lo ≤ c.partition ∧ c.partition < c.hi := by
  intro calls
  have key : ∀ c ∈ calls, c.lo = e.outPartitions * ctx.index ∧ c.hi = e.outPartitions * ctx.index + e.outPartitions ∧
      c.lo ≤ c.partition ∧ c.partition < c.hi := by
    intro c hc
    simp only [calls, List.mem_flatMap, FanExec.execute, List.map_map, List.mem_map, Function.comp_apply] at hc
    obtain ⟨q, hq, j, _, rfl⟩ := hc
    have := hqs q hq
    refine ⟨rfl, rfl, ?_, ?_⟩
    · show e.outPartitions * ctx.index ≤ e.outPartitions * ctx.index + q; omega
    · show e.outPartitions * ctx.index + q < e.outPartitions * ctx.index + e.outPartitions; omega
  refine ⟨fun c hc c' hc' _ => ?_, fun c hc => ?_⟩
  · have h1 := key c hc; have h2 := key c' hc'; omega
  · have h1 := key c hc; omega

/-- A worker that answers every request. -/
def goodServer : Server := fun t lo hi => .ok ((List.range (hi - lo)).map fun j => ⟨t, lo + j⟩)

theorem goodServer_honest : Honest goodServer := by
  intro t lo hi streams h
  simp only [goodServer, Except.ok.injEq] at h
  exact h.symm

/-- Non-vacuity: two callers of different partitions get their own streams, a third one asking again gets an error, and
only one request was sent. -/
example : let s := run goodServer 3 3 [.execute ⟨4, 6, 1, 5⟩, .execute ⟨4, 6, 1, 4⟩, .poll 1, .execute ⟨4, 6, 1, 5⟩, .poll 2, .poll 0]
    s.requests = [(1, 4, 6)] ∧ s.outcome 1 = some (.ok ⟨1, 4⟩) ∧ s.outcome 2 = some (.ok ⟨1, 5⟩) ∧
    s.outcome 0 = some (.error (.internal "already consumed")) := ⟨rfl, rfl, rfl, rfl⟩

/-- `SameRanges` is needed: the pool indexes the first caller's streams with the second caller's own range start, so a
caller with another range is handed the stream of another partition, without an error. -/
theorem C07_mixed_ranges_misdeliver :
    let s := run goodServer 3 3 [.execute ⟨4, 6, 1, 5⟩, .execute ⟨5, 7, 1, 5⟩, .poll 1]
    s.handles[1]? = some ⟨5, 7, 1, 5⟩ ∧ s.outcome 1 = some (.ok ⟨1, 4⟩) := ⟨rfl, rfl⟩

end DD.Pool
