import Verif.Model.Channels
/-
C62: reaching a worker. Concurrent requests for one URL share one connection attempt, a failed attempt is not handed to anyone who
asks after the failure was seen, a working connection is kept, and what happens on one URL does not touch another.
-/
namespace DD.Channels

variable {Url : Type} [DecidableEq Url]

/-! ### What is counted -/

/-- How many connections to `url` were attempted. -/
def State.connections (s : State Url) (url : Url) : Nat := (s.attempts.filter (·.url = url)).length

/-- How many calls for `url` have returned an error. -/
def State.failures (s : State Url) (url : Url) : Nat :=
  (s.calls.filter fun c => c.url = url ∧ c.phase = .returned false).length

/-- How often the cache evicted the entry of `url` in a history. -/
def evictions (l : List (Step Url)) (url : Url) : Nat := l.count (.evict url)

/-! ### The invariant -/

/-- Calls and cache entries belong to attempts of their own URL, the cached attempt is the newest of its URL, a call's phase is
what its attempt came to, and an attempt seen failing by a call that returned is no longer cached. -/
structure Inv (s : State Url) : Prop where
  cached : ∀ u a, s.cache u = some a → (∃ at' : Attempt Url, s.attempts[a]? = some at' ∧ at'.url = u) ∧
    ∀ (b : Nat) (at' : Attempt Url), s.attempts[b]? = some at' → at'.url = u → b ≤ a
  call : ∀ (i : Nat) (c : Call Url), s.calls[i]? = some c → ∃ at' : Attempt Url, s.attempts[c.attempt]? = some at' ∧ at'.url = c.url ∧
    (∀ b, c.phase = .returned b → at'.result = some b) ∧ (c.phase = .failing → at'.result = some false)
  gone : ∀ (i : Nat) (c : Call Url), s.calls[i]? = some c → c.phase = .returned false → s.cache c.url ≠ some c.attempt
  failed : ∀ u a (at' : Attempt Url), s.cache u = some a → s.attempts[a]? = some at' → at'.result = some false →
    ∃ (i : Nat) (c : Call Url), s.calls[i]? = some c ∧ c.attempt = a ∧ c.url = u ∧ c.phase = .failing

theorem inv_init : Inv ({} : State Url) := by
  constructor <;> simp

theorem getElem?_append_one {α : Type} (l : List α) (x y : α) (i : Nat) (h : (l ++ [x])[i]? = some y) :
    l[i]? = some y ∨ (i = l.length ∧ y = x) := by
  rcases Nat.lt_trichotomy i l.length with hi | hi | hi
  · left; rwa [List.getElem?_append_left hi] at h
  · right; subst hi; simp at h; exact ⟨rfl, h.symm⟩
  · rw [List.getElem?_append_right (by omega)] at h
    obtain ⟨k, hk⟩ : ∃ k, i - l.length = k + 1 := ⟨i - l.length - 1, by omega⟩
    rw [hk] at h; simp at h

theorem getElem?_lt {α : Type} {l : List α} {i : Nat} {x : α} (h : l[i]? = some x) : i < l.length := by
  obtain ⟨hi, _⟩ := List.getElem?_eq_some_iff.mp h; exact hi

theorem getElem?_append_old {α : Type} {l : List α} {i : Nat} {x : α} (y : α) (h : l[i]? = some x) :
    (l ++ [y])[i]? = some x := by
  rw [List.getElem?_append_left (getElem?_lt h)]; exact h

theorem getElem?_set_cases {α : Type} {l : List α} {c i : Nat} {x y : α} (h : (l.set c x)[i]? = some y) :
    (i = c ∧ y = x ∧ i < l.length) ∨ (i ≠ c ∧ l[i]? = some y) := by
  by_cases hi : i = c
  · subst hi
    have hlt := getElem?_lt h
    rw [List.length_set] at hlt
    rw [List.getElem?_set_self hlt] at h
    exact .inl ⟨rfl, (Option.some.inj h).symm, hlt⟩
  · rw [List.getElem?_set_ne (Ne.symm hi)] at h; exact .inr ⟨hi, h⟩

theorem getElem?_set_ne' {α : Type} {l : List α} {c i : Nat} {x y : α} (hi : i ≠ c) (h : l[i]? = some y) :
    (l.set c x)[i]? = some y := by
  rw [List.getElem?_set_ne (Ne.symm hi)]; exact h

theorem getElem?_set_self' {α : Type} {l : List α} {c : Nat} {x y : α} (h : l[c]? = some y) :
    (l.set c x)[c]? = some x := List.getElem?_set_self (getElem?_lt h)

theorem inv_getChannel {s : State Url} (h : Inv s) (url : Url) : Inv (getChannel s url) := by
  unfold getChannel
  rcases hc : s.cache url with _ | a
  · dsimp only
    constructor
    · intro u a hu
      simp only [setCache] at hu
      split at hu
      · rename_i hu'
        subst hu'
        simp only [Option.some.injEq] at hu
        subst hu
        refine ⟨⟨{ url := u }, by simp, rfl⟩, ?_⟩
        intro b at' hb _
        have := getElem?_lt hb
        rw [List.length_append] at this; simp at this; omega
      · rename_i hne
        obtain ⟨⟨at', ha, hau⟩, hmax⟩ := h.cached u a hu
        refine ⟨⟨at', getElem?_append_old _ ha, hau⟩, ?_⟩
        intro b bt hb hbu
        rcases getElem?_append_one _ _ _ _ hb with hb | ⟨_, rfl⟩
        · exact hmax b bt hb hbu
        · exact absurd hbu.symm hne
    · intro i c hi
      rcases getElem?_append_one _ _ _ _ hi with hi | ⟨_, rfl⟩
      · obtain ⟨at', ha, rest⟩ := h.call i c hi
        exact ⟨at', getElem?_append_old _ ha, rest⟩
      · exact ⟨{ url }, by simp, rfl, by simp, by simp⟩
    · intro i c hi hp
      rcases getElem?_append_one _ _ _ _ hi with hi | ⟨_, rfl⟩
      · have hg := h.gone i c hi hp
        obtain ⟨at', ha, _⟩ := h.call i c hi
        have := getElem?_lt ha
        simp only [setCache]
        split
        · simp; omega
        · exact hg
      · simp at hp
    · intro u a at' hu ha hr
      simp only [setCache] at hu
      split at hu
      · simp only [Option.some.injEq] at hu
        subst hu
        simp at ha
        subst ha
        simp at hr
      · obtain ⟨⟨at₀, ha₀, _⟩, _⟩ := h.cached u a hu
        rcases getElem?_append_one _ _ _ _ ha with ha' | ⟨rfl, _⟩
        · obtain ⟨i, c, hi, rest⟩ := h.failed u a at' hu ha' hr
          exact ⟨i, c, getElem?_append_old _ hi, rest⟩
        · exact absurd (getElem?_lt ha₀) (by omega)
  · dsimp only
    obtain ⟨⟨at₀, ha₀, hau₀⟩, _⟩ := h.cached url a hc
    constructor
    · exact h.cached
    · intro i c hi
      rcases getElem?_append_one _ _ _ _ hi with hi | ⟨_, rfl⟩
      · exact h.call i c hi
      · exact ⟨at₀, ha₀, hau₀, by simp, by simp⟩
    · intro i c hi hp
      rcases getElem?_append_one _ _ _ _ hi with hi | ⟨_, rfl⟩
      · exact h.gone i c hi hp
      · simp at hp
    · intro u a' at' hu ha hr
      obtain ⟨i, c, hi, rest⟩ := h.failed u a' at' hu ha hr
      exact ⟨i, c, getElem?_append_old _ hi, rest⟩

theorem output_of_result {a : Attempt Url} {b : Bool} (answer : Option Bool) (h : a.result = some b) :
    output a answer = some b := by
  unfold output; rw [h]; rfl

/-- The phase a poll leaves a waiting call in. -/
theorem inv_pollCall {s : State Url} (h : Inv s) (c : Nat) (answer : Option Bool) : Inv (pollCall s c answer) := by
  unfold pollCall
  split
  · rename_i url attempt hc
    split
    · exact h
    · rename_i a ha
      dsimp only
      obtain ⟨a', ha', hau, _⟩ := h.call c _ hc
      dsimp only at ha' hau
      rw [ha] at ha'
      obtain rfl := Option.some.inj ha'
      generalize hr : output a answer = r
      -- any attempt other than the polled one is untouched, and the polled one keeps its URL and any result it had
      have hat : ∀ (k : Nat) (at' : Attempt Url), s.attempts[k]? = some at' →
          ∃ at'' : Attempt Url, (s.attempts.set attempt { a with result := r })[k]? = some at'' ∧ at''.url = at'.url ∧
            ∀ b, at'.result = some b → at''.result = some b := by
        intro k at' hk
        by_cases hka : k = attempt
        · subst hka
          rw [ha] at hk
          obtain rfl := Option.some.inj hk
          refine ⟨_, getElem?_set_self' ha, rfl, ?_⟩
          intro b hb
          rw [← hr, output_of_result answer hb]
        · exact ⟨at', getElem?_set_ne' hka hk, rfl, fun _ => id⟩
      have hback : ∀ (k : Nat) (at' : Attempt Url), (s.attempts.set attempt { a with result := r })[k]? = some at' →
          ∃ at'' : Attempt Url, s.attempts[k]? = some at'' ∧ at''.url = at'.url ∧ (k ≠ attempt → at'' = at') := by
        intro k at' hk
        rcases getElem?_set_cases hk with ⟨rfl, rfl, _⟩ | ⟨hne, hk⟩
        · exact ⟨a, ha, rfl, fun hn => absurd rfl hn⟩
        · exact ⟨at', hk, rfl, fun _ => rfl⟩
      constructor
      · intro u k hu
        obtain ⟨⟨at', hk, hku⟩, hmax⟩ := h.cached u k hu
        obtain ⟨at'', hk', hu', _⟩ := hat k at' hk
        refine ⟨⟨at'', hk', hu'.trans hku⟩, ?_⟩
        intro b bt hb hbu
        obtain ⟨bt', hb', hbu', _⟩ := hback b bt hb
        exact hmax b bt' hb' (hbu'.trans hbu)
      · intro i ci hi
        rcases getElem?_set_cases hi with ⟨rfl, rfl, _⟩ | ⟨_, hi⟩
        · refine ⟨_, getElem?_set_self' ha, hau, ?_, ?_⟩
          · intro b hb
            dsimp only at hb ⊢
            rcases r with _ | _ | _ <;> simp_all
          · intro hb
            dsimp only at hb ⊢
            rcases r with _ | _ | _ <;> simp_all
        · obtain ⟨at', hk, hu, hret, hfail⟩ := h.call i ci hi
          obtain ⟨at'', hk', hu', hres⟩ := hat _ at' hk
          exact ⟨at'', hk', hu'.trans hu, fun b hb => hres b (hret b hb), fun hb => hres _ (hfail hb)⟩
      · intro i ci hi hp
        rcases getElem?_set_cases hi with ⟨rfl, rfl, _⟩ | ⟨_, hi⟩
        · dsimp only at hp
          rcases r with _ | _ | _ <;> simp_all
        · exact h.gone i ci hi hp
      · intro u k at' hu hk hres
        rcases getElem?_set_cases hk with ⟨rfl, rfl, _⟩ | ⟨hne, hk⟩
        · -- the polled attempt has failed, so the polling call is now failing
          dsimp only at hres
          subst hres
          obtain ⟨⟨at₀, hk₀, hu₀⟩, _⟩ := h.cached u _ hu
          rw [ha] at hk₀
          obtain rfl := Option.some.inj hk₀
          exact ⟨c, _, getElem?_set_self' hc, rfl, hau.symm.trans hu₀, rfl⟩
        · obtain ⟨i, ci, hi, hia, hiu, hip⟩ := h.failed u k at' hu hk hres
          refine ⟨i, ci, getElem?_set_ne' ?_ hi, hia, hiu, hip⟩
          rintro rfl
          rw [hc] at hi
          obtain rfl := Option.some.inj hi
          simp at hip
  · exact h

/-- Replacing a call by one with another phase that claims nothing new, and removing a cache entry. -/
theorem inv_setCall {s : State Url} (h : Inv s) (c : Nat) (url : Url) (attempt : Nat) (p p' : Phase) (evicted : Bool)
    (hc : s.calls[c]? = some { url, attempt, phase := p })
    (hp : (p = .failing ∧ p' = .returned false ∧ evicted = true) ∨ (p = .waiting ∧ p' = .dropped)) :
    Inv { s with cache := if evicted then setCache s.cache url none else s.cache
                 calls := s.calls.set c { url, attempt, phase := p' } } := by
  have hsub : ∀ u a, (if evicted then setCache s.cache url none else s.cache) u = some a → s.cache u = some a := by
    intro u a hu
    split at hu
    · simp only [setCache] at hu
      split at hu
      · simp at hu
      · exact hu
    · exact hu
  constructor
  · intro u a hu
    exact h.cached u a (hsub u a hu)
  · intro i ci hi
    rcases getElem?_set_cases hi with ⟨rfl, rfl, _⟩ | ⟨_, hi⟩
    · obtain ⟨at', ha, hu, hret, hfail⟩ := h.call i _ hc
      refine ⟨at', ha, hu, ?_, ?_⟩
      · intro b hb
        rcases hp with ⟨rfl, rfl, _⟩ | ⟨rfl, rfl⟩
        · simp at hb; subst hb; exact hfail rfl
        · simp at hb
      · intro hb
        rcases hp with ⟨rfl, rfl, _⟩ | ⟨rfl, rfl⟩ <;> simp at hb
    · exact h.call i ci hi
  · intro i ci hi hpi hcache
    rcases getElem?_set_cases hi with ⟨rfl, rfl, _⟩ | ⟨_, hi⟩
    · rcases hp with ⟨rfl, rfl, rfl⟩ | ⟨rfl, rfl⟩
      · simp [setCache] at hcache
      · simp at hpi
    · exact h.gone i ci hi hpi (hsub _ _ hcache)
  · intro u a at' hu ha hr
    obtain ⟨i, ci, hi, hia, hiu, hip⟩ := h.failed u a at' (hsub u a hu) ha hr
    refine ⟨i, ci, getElem?_set_ne' ?_ hi, hia, hiu, hip⟩
    rintro rfl
    rw [hc] at hi
    obtain rfl := Option.some.inj hi
    rcases hp with ⟨rfl, rfl, rfl⟩ | ⟨rfl, rfl⟩
    · dsimp only at hiu
      subst hiu
      simp [setCache] at hu
    · simp at hip

theorem inv_step {s : State Url} (h : Inv s) (a : Step Url) : Inv (step s a) := by
  cases a with
  | call url => exact inv_getChannel h url
  | poll c ans => exact inv_pollCall h c ans
  | finish c =>
    simp only [step, finishCall]
    split
    · rename_i url attempt hc
      exact inv_setCall h c url attempt .failing (.returned false) true hc (.inl ⟨rfl, rfl, rfl⟩)
    · exact h
  | drop c =>
    simp only [step, dropCall]
    split
    · rename_i url attempt hc
      exact inv_setCall h c url attempt .waiting .dropped false hc (.inr ⟨rfl, rfl⟩)
    · exact h
  | evict url =>
    have hsub : ∀ u a, setCache s.cache url none u = some a → s.cache u = some a := by
      intro u a hu
      simp only [setCache] at hu
      split at hu
      · simp at hu
      · exact hu
    exact ⟨fun u a hu => h.cached u a (hsub u a hu), h.call, fun i c hi hp hc => h.gone i c hi hp (hsub _ _ hc),
      fun u a at' hu => h.failed u a at' (hsub u a hu)⟩

theorem inv_runFrom (l : List (Step Url)) : ∀ {s : State Url}, Inv s → Inv (runFrom s l) := by
  induction l with
  | nil => intro s h; exact h
  | cons a l ih => intro s h; exact ih (inv_step h a)

theorem inv_run (l : List (Step Url)) : Inv (run l) := inv_runFrom l inv_init

theorem run_append (l l' : List (Step Url)) : run (l ++ l') = runFrom (run l) l' := by
  simp [run, runFrom, List.foldl_append]

/-! ### C62 -/

/-- **C62.** What a call returns is what one connection attempt to the URL it asked for came to. -/
theorem C62_outcome_of_own_url (l : List (Step Url)) (i : Nat) (c : Call Url) (b : Bool)
    (hi : (run l).calls[i]? = some c) (hb : c.phase = .returned b) :
    ∃ a : Attempt Url, (run l).attempts[c.attempt]? = some a ∧ a.url = c.url ∧ a.result = some b := by
  obtain ⟨a, ha, hu, hr, _⟩ := (inv_run l).call i c hi
  exact ⟨a, ha, hu, hr b hb⟩

/-- **C62.** Calls that share an attempt return the same. -/
theorem C62_sharers_agree (l : List (Step Url)) (i j : Nat) (ci cj : Call Url) (bi bj : Bool)
    (hi : (run l).calls[i]? = some ci) (hj : (run l).calls[j]? = some cj) (h : ci.attempt = cj.attempt)
    (hbi : ci.phase = .returned bi) (hbj : cj.phase = .returned bj) : bi = bj ∧ ci.url = cj.url := by
  obtain ⟨a, ha, hua, hra⟩ := C62_outcome_of_own_url l i ci bi hi hbi
  obtain ⟨b, hb, hub, hrb⟩ := C62_outcome_of_own_url l j cj bj hj hbj
  rw [h, hb] at ha
  obtain rfl := Option.some.inj ha
  rw [hra] at hrb
  exact ⟨Option.some.inj hrb, hua.symm.trans hub⟩

/-! ### Calls keep their index, their URL and their attempt; a call that returned stays returned -/

/-- A later version of a call. -/
def Later (c c' : Call Url) : Prop :=
  c'.url = c.url ∧ c'.attempt = c.attempt ∧ ∀ b, c.phase = .returned b → c' = c

theorem later_refl (c : Call Url) : Later c c := ⟨rfl, rfl, fun _ _ => rfl⟩

theorem later_trans {a b c : Call Url} (h₁ : Later a b) (h₂ : Later b c) : Later a c := by
  refine ⟨h₂.1.trans h₁.1, h₂.2.1.trans h₁.2.1, ?_⟩
  intro x hx
  have h := h₁.2.2 x hx
  rw [h] at h₂
  exact h₂.2.2 x hx

theorem step_calls {s : State Url} (a : Step Url) (i : Nat) (c : Call Url) (h : s.calls[i]? = some c) :
    ∃ c' : Call Url, (step s a).calls[i]? = some c' ∧ Later c c' := by
  have hset : ∀ (k : Nat) (url : Url) (attempt : Nat) (p p' : Phase), s.calls[k]? = some { url, attempt, phase := p } →
      (∀ b, p ≠ .returned b) →
      ∃ c' : Call Url, (s.calls.set k { url, attempt, phase := p' })[i]? = some c' ∧ Later c c' := by
    intro k url attempt p p' hk hp
    by_cases hik : i = k
    · subst hik
      rw [h] at hk
      obtain rfl := Option.some.inj hk
      exact ⟨_, getElem?_set_self' h, rfl, rfl, fun b hb => absurd hb (hp b)⟩
    · exact ⟨c, getElem?_set_ne' hik h, later_refl c⟩
  cases a with
  | call url =>
    refine ⟨c, ?_, later_refl c⟩
    simp only [step, getChannel]
    split <;> exact getElem?_append_old _ h
  | poll k ans =>
    simp only [step, pollCall]
    split
    · rename_i hk
      split
      · exact ⟨c, h, later_refl c⟩
      · exact hset k _ _ _ _ hk (by simp)
    · exact ⟨c, h, later_refl c⟩
  | finish k =>
    simp only [step, finishCall]
    split
    · rename_i hk
      exact hset k _ _ _ _ hk (by simp)
    · exact ⟨c, h, later_refl c⟩
  | drop k =>
    simp only [step, dropCall]
    split
    · rename_i hk
      exact hset k _ _ _ _ hk (by simp)
    · exact ⟨c, h, later_refl c⟩
  | evict url => exact ⟨c, h, later_refl c⟩

theorem runFrom_calls (l : List (Step Url)) : ∀ {s : State Url} (i : Nat) (c : Call Url), s.calls[i]? = some c →
    ∃ c' : Call Url, (runFrom s l).calls[i]? = some c' ∧ Later c c' := by
  induction l with
  | nil => intro s i c h; exact ⟨c, h, later_refl c⟩
  | cons a l ih =>
    intro s i c h
    obtain ⟨c', h', hl⟩ := step_calls a i c h
    obtain ⟨c'', h'', hl'⟩ := ih i c' h'
    exact ⟨c'', h'', later_trans hl hl'⟩

/-! ### A failure seen is not handed out again -/

theorem step_length {s : State Url} (a : Step Url) :
    (step s a).calls.length = s.calls.length ∨
      ∃ url, a = .call url ∧ (step s a).calls.length = s.calls.length + 1 := by
  cases a with
  | call url =>
    right
    refine ⟨url, rfl, ?_⟩
    simp only [step, getChannel]
    split <;> simp
  | poll k ans => left; simp only [step, pollCall]; split <;> (try split) <;> simp
  | finish k => left; simp only [step, finishCall]; split <;> simp
  | drop k => left; simp only [step, dropCall]; split <;> simp
  | evict url => left; rfl

/-- The attempt a new call is given: the cached one, or a new one. -/
theorem call_attempt (s : State Url) (url : Url) :
    (getChannel s url).calls[s.calls.length]? =
      some { url, attempt := (s.cache url).getD s.attempts.length } := by
  unfold getChannel
  split <;> rename_i h <;> simp [h]

theorem newer_than_failed {s : State Url} (h : Inv s) (i : Nat) (c : Call Url) (hi : s.calls[i]? = some c)
    (hf : c.phase = .returned false) : c.attempt < (s.cache c.url).getD s.attempts.length := by
  obtain ⟨at', ha, hu, _⟩ := h.call i c hi
  rcases hc : s.cache c.url with _ | a
  · exact getElem?_lt ha
  · have h₁ := (h.cached _ _ hc).2 _ _ ha hu
    have h₂ := h.gone i c hi hf
    rw [hc] at h₂
    simp only [Option.getD_some]
    have : a ≠ c.attempt := fun e => h₂ (by rw [e])
    omega

theorem later_calls_newer (l : List (Step Url)) : ∀ {s : State Url}, Inv s → ∀ (i j : Nat) (ci cj : Call Url),
    s.calls[i]? = some ci → ci.phase = .returned false → s.calls.length ≤ j →
    (runFrom s l).calls[j]? = some cj → cj.url = ci.url → ci.attempt < cj.attempt := by
  induction l with
  | nil =>
    intro s _ i j ci cj _ _ hj hcj _
    exact absurd (getElem?_lt hcj) (by simp [runFrom]; omega)
  | cons a l ih =>
    intro s h i j ci cj hi hf hj hcj hu
    obtain ⟨ci', hi', _, _, hsame⟩ := step_calls a i ci hi
    rw [hsame false hf] at hi'
    rcases step_length (s := s) a with hlen | ⟨url, rfl, hlen⟩
    · exact ih (inv_step h a) i j ci cj hi' hf (by omega) hcj hu
    · by_cases hj' : j = s.calls.length
      · subst hj'
        have hnew := call_attempt s url
        obtain ⟨c', hc', hlu, hla, _⟩ := runFrom_calls l (s := step s (.call url)) _ _ hnew
        have hcj' : (runFrom (step s (.call url)) l).calls[s.calls.length]? = some cj := hcj
        rw [hc'] at hcj'
        obtain rfl := Option.some.inj hcj'
        dsimp only at hlu hla
        rw [hla]
        have := newer_than_failed h i ci hi hf
        rw [← hu, hlu] at this
        exact this
      · exact ih (inv_step h _) i j ci cj hi' hf (by omega) hcj hu

/-- **C62.** Once a call has returned an error, every later call for that URL is given a connection attempt that was started after
the one that failed. -/
theorem C62_failure_not_reused (l l' : List (Step Url)) (i j : Nat) (ci cj : Call Url)
    (hi : (run l).calls[i]? = some ci) (hf : ci.phase = .returned false)
    (hj : (run l).calls.length ≤ j) (hcj : (run (l ++ l')).calls[j]? = some cj) (hu : cj.url = ci.url) :
    ci.attempt < cj.attempt := by
  rw [run_append] at hcj
  exact later_calls_newer l' (inv_run l) i j ci cj hi hf hj hcj hu

/-- **C62.** Whoever gives up waiting, a failed attempt is never left behind: when no call for the URL is in the middle of
returning its error, a new call is not given an attempt that has already failed. -/
theorem C62_no_failure_left_behind (l : List (Step Url)) (url : Url)
    (hq : ∀ (i : Nat) (c : Call Url), (run l).calls[i]? = some c → c.url = url → c.phase ≠ .failing) :
    ∃ (c : Call Url) (a : Attempt Url), (run (l ++ [.call url])).calls[(run l).calls.length]? = some c ∧ c.url = url ∧
      (run (l ++ [.call url])).attempts[c.attempt]? = some a ∧ a.url = url ∧ a.result ≠ some false := by
  have hinv := inv_run l
  rw [run_append]
  show ∃ (c : Call Url) (a : Attempt Url), (getChannel (run l) url).calls[_]? = some c ∧ c.url = url ∧
    (getChannel (run l) url).attempts[c.attempt]? = some a ∧ _
  refine ⟨{ url, attempt := ((run l).cache url).getD (run l).attempts.length }, ?_⟩
  rcases hc : (run l).cache url with _ | k
  · refine ⟨{ url }, ?_⟩
    rw [call_attempt, hc]
    refine ⟨rfl, rfl, ?_, rfl, by simp⟩
    simp [getChannel, hc]
  · obtain ⟨⟨at', ha, hu⟩, _⟩ := hinv.cached url k hc
    refine ⟨at', ?_⟩
    rw [call_attempt, hc]
    refine ⟨rfl, rfl, ?_, hu, ?_⟩
    · simpa [getChannel, hc] using ha
    · intro hr
      obtain ⟨i, c, hi, _, hcu, hp⟩ := hinv.failed url k at' hc ha hr
      exact hq i c hi hcu hp

/-! ### Sharing -/

theorem failures_append_one (calls : List (Call Url)) (c : Call Url) (url : Url) (hp : c.phase = .waiting) :
    ((calls ++ [c]).filter fun c => c.url = url ∧ c.phase = .returned false).length =
      (calls.filter fun c => c.url = url ∧ c.phase = .returned false).length := by
  rw [List.filter_append]
  simp [hp]

theorem filter_set {α : Type} (p : α → Bool) (l : List α) (i : Nat) (x y : α) (h : l[i]? = some y) :
    ((l.set i x).filter p).length + (if p y then 1 else 0) = (l.filter p).length + (if p x then 1 else 0) := by
  induction l generalizing i with
  | nil => simp at h
  | cons a l ih =>
    cases i with
    | zero =>
      simp at h; subst h
      simp only [List.set_cons_zero, List.filter_cons]
      by_cases h1 : p x = true <;> by_cases h2 : p a = true <;> simp [h1, h2]
    | succ i =>
      have := ih i (by simpa using h)
      simp only [List.set_cons_succ, List.filter_cons]
      by_cases h1 : p a = true
      · simp only [h1, if_true, List.length_cons]; omega
      · simp only [h1, Bool.false_eq_true, if_false]; exact this

/-- One step either leaves the cache entry of `url` alone or fills it when empty, or evicts it, or is one more failed return. -/
theorem step_cache (s : State Url) (h : Inv s) (a : Step Url) (url : Url) :
    ((step s a).failures url = s.failures url ∧ (step s a).connections url = s.connections url ∧
        (step s a).cache url = s.cache url ∧ a ≠ .evict url) ∨
    ((step s a).failures url = s.failures url ∧ (step s a).connections url = s.connections url + 1 ∧
        s.cache url = none ∧ (step s a).cache url = some s.attempts.length ∧ a = .call url) ∨
    ((step s a).failures url = s.failures url ∧ (step s a).connections url = s.connections url ∧
        (step s a).cache url = none ∧ a = .evict url) ∨
    ((step s a).failures url = s.failures url + 1 ∧ (step s a).connections url = s.connections url ∧
        (step s a).cache url = none ∧ a ≠ .evict url) := by
  have hset : ∀ (k : Nat) (u : Url) (attempt : Nat) (p p' : Phase), s.calls[k]? = some { url := u, attempt, phase := p } →
      p ≠ .returned false → p' ≠ .returned false →
      ((s.calls.set k { url := u, attempt, phase := p' }).filter fun c => c.url = url ∧ c.phase = .returned false).length =
        s.failures url := by
    intro k u attempt p p' hk hp hp'
    have := filter_set (fun c : Call Url => decide (c.url = url ∧ c.phase = .returned false)) s.calls k
      { url := u, attempt, phase := p' } _ hk
    simp only [hp, hp', and_false, decide_false] at this
    simpa [State.failures] using this
  cases a with
  | call u =>
    by_cases hu : u = url
    · subst hu
      rcases hc : s.cache u with _ | k
      · right; left
        simp only [step, getChannel, hc]
        refine ⟨failures_append_one _ _ _ rfl, ?_, trivial, by simp [setCache], trivial⟩
        simp [State.connections, List.filter_append]
      · left
        simp only [step, getChannel, hc]
        exact ⟨failures_append_one _ _ _ rfl, rfl, trivial, by simp⟩
    · left
      simp only [step, getChannel]
      split
      · exact ⟨failures_append_one _ _ _ rfl, rfl, rfl, by simp⟩
      · refine ⟨failures_append_one _ _ _ rfl, ?_, ?_, by simp⟩
        · simp [State.connections, List.filter_append, hu]
        · simp [setCache, Ne.symm hu]
  | poll k ans =>
    left
    simp only [step, pollCall]
    split
    · rename_i u attempt hk
      split
      · simp
      · rename_i at' ha
        refine ⟨?_, ?_, rfl, by simp⟩
        · refine hset k u attempt _ _ hk (by simp) ?_
          rcases output at' ans with _ | _ | _ <;> simp
        · have := filter_set (fun a : Attempt Url => decide (a.url = url)) s.attempts attempt
            { at' with result := output at' ans } _ ha
          simpa [State.connections] using this
    · simp
  | finish k =>
    simp only [step, finishCall]
    split
    · rename_i u attempt hk
      by_cases hu : u = url
      · subst hu
        right; right; right
        refine ⟨?_, rfl, by simp [setCache], by simp⟩
        have := filter_set (fun c : Call Url => decide (c.url = u ∧ c.phase = .returned false)) s.calls k
          { url := u, attempt, phase := .returned false } _ hk
        simpa [State.failures] using this
      · left
        refine ⟨?_, rfl, by simp [setCache, Ne.symm hu], by simp⟩
        have := filter_set (fun c : Call Url => decide (c.url = url ∧ c.phase = .returned false)) s.calls k
          { url := u, attempt, phase := .returned false } _ hk
        simpa [State.failures, hu] using this
    · left; simp
  | drop k =>
    left
    simp only [step, dropCall]
    split
    · rename_i u attempt hk
      exact ⟨hset k u attempt _ _ hk (by simp) (by simp), rfl, rfl, by simp⟩
    · simp
  | evict u =>
    by_cases hu : u = url
    · subst hu
      right; right; left
      exact ⟨rfl, rfl, by simp [step, setCache], rfl⟩
    · left
      exact ⟨rfl, rfl, by simp [step, setCache, Ne.symm hu], by simp [hu]⟩

theorem failures_mono (l : List (Step Url)) : ∀ {s : State Url}, Inv s → ∀ url, s.failures url ≤ (runFrom s l).failures url := by
  induction l with
  | nil => intro s _ url; exact Nat.le_refl _
  | cons a l ih =>
    intro s h url
    have := ih (inv_step h a) url
    have h' : (runFrom s (a :: l)).failures url = (runFrom (step s a) l).failures url := rfl
    rw [h']
    rcases step_cache s h a url with ⟨h1, _⟩ | ⟨h1, _⟩ | ⟨h1, _⟩ | ⟨h1, _⟩ <;> omega

theorem cache_kept (l : List (Step Url)) : ∀ {s : State Url}, Inv s → ∀ url k, s.cache url = some k →
    evictions l url = 0 → (runFrom s l).failures url = s.failures url → (runFrom s l).cache url = some k := by
  induction l with
  | nil => intro s _ url k h _ _; exact h
  | cons a l ih =>
    intro s h url k hk he hf
    have hm := failures_mono l (inv_step h a) url
    have hf' : (runFrom (step s a) l).failures url = s.failures url := hf
    have hne : a ≠ .evict url := by
      rintro rfl
      simp [evictions] at he
    have he' : evictions l url = 0 := by
      unfold evictions at he ⊢
      rw [List.count_cons] at he
      omega
    rcases step_cache s h a url with ⟨h1, _, h3, _⟩ | ⟨h1, _, h3, _⟩ | ⟨_, _, _, h4⟩ | ⟨h1, _⟩
    · exact ih (inv_step h a) url k (h3.trans hk) he' (by omega)
    · rw [hk] at h3; exact absurd h3 (by simp)
    · exact absurd h4 hne
    · omega

/-- **C62.** Two calls for one URL share their connection attempt unless, in between, some call for that URL returned an error or the
cache evicted it. What happens to other URLs does not matter. -/
theorem C62_calls_share (l mid : List (Step Url)) (url : Url) (he : evictions mid url = 0)
    (hf : (run (l ++ .call url :: mid)).failures url = (run l).failures url) :
    ∃ c c' : Call Url, (run (l ++ [.call url])).calls[(run l).calls.length]? = some c ∧ c.url = url ∧
      (run (l ++ .call url :: mid ++ [.call url])).calls[(run (l ++ .call url :: mid)).calls.length]? = some c' ∧
      c'.url = url ∧ c.attempt = c'.attempt := by
  have hinv := inv_run l
  have hc : (getChannel (run l) url).cache url = some ((run l).cache url |>.getD (run l).attempts.length) := by
    unfold getChannel
    split <;> rename_i h <;> simp [h, setCache]
  have hf0 : (getChannel (run l) url).failures url = (run l).failures url := by
    unfold getChannel
    split <;> exact failures_append_one _ _ _ rfl
  have hrun : run (l ++ .call url :: mid) = runFrom (getChannel (run l) url) mid := by
    rw [run_append]; rfl
  have hkept := cache_kept mid (inv_getChannel hinv url) url _ hc he (by rw [← hrun, hf, hf0])
  refine ⟨{ url, attempt := (run l).cache url |>.getD (run l).attempts.length },
    { url, attempt := (run l).cache url |>.getD (run l).attempts.length }, ?_, rfl, ?_, rfl, rfl⟩
  · rw [run_append]; exact call_attempt _ _
  · rw [run_append (l ++ .call url :: mid)]
    show (getChannel _ url).calls[_]? = _
    rw [call_attempt, hrun, hkept]
    rfl

/-- **C62.** A connection that works is kept: after a call got its channel, and until some call for that URL returns an error or the
cache evicts it, a new call gets the same channel as soon as it is polled, whatever the network would answer. -/
theorem C62_connection_kept (l mid : List (Step Url)) (url : Url) (he : evictions mid url = 0)
    (hf : (run (l ++ .call url :: mid)).failures url = (run l).failures url) (c : Call Url)
    (hc : (run (l ++ .call url :: mid)).calls[(run l).calls.length]? = some c) (hok : c.phase = .returned true)
    (answer : Option Bool) :
    (run (l ++ .call url :: mid ++ [.call url, .poll (run (l ++ .call url :: mid)).calls.length answer])).calls[
      (run (l ++ .call url :: mid)).calls.length]? = some { url, attempt := c.attempt, phase := .returned true } := by
  obtain ⟨c₁, c₂, h₁, hu₁, h₂, hu₂, hatt⟩ := C62_calls_share l mid url he hf
  have hsplit : l ++ .call url :: mid = (l ++ [.call url]) ++ mid := by simp
  obtain ⟨c₃, h₃, hl⟩ := runFrom_calls mid _ _ h₁
  rw [← run_append, ← hsplit] at h₃
  rw [hc] at h₃
  obtain rfl := Option.some.inj h₃
  generalize l ++ .call url :: mid = L at *
  obtain ⟨at', hat, hatu, hres⟩ := C62_outcome_of_own_url L _ c true hc hok
  have hrun : run (L ++ [.call url, .poll (run L).calls.length answer]) =
      pollCall (run (L ++ [.call url])) (run L).calls.length answer := by
    rw [run_append, run_append]; rfl
  rw [hrun]
  have hat2 : (run (L ++ [.call url])).attempts[c₂.attempt]? = some at' := by
    rw [← hatt, ← hl.2.1]
    rw [run_append]
    show (getChannel _ url).attempts[_]? = _
    unfold getChannel
    split
    · exact hat
    · exact getElem?_append_old _ hat
  have hnew : (run (L ++ [.call url])).calls[(run L).calls.length]? =
      some { url, attempt := ((run L).cache url).getD (run L).attempts.length } := by
    rw [run_append]; exact call_attempt _ _
  rw [hnew] at h₂
  obtain rfl := Option.some.inj h₂
  dsimp only at hat2 hatt
  unfold pollCall
  rw [hnew]
  dsimp only
  rw [hat2]
  dsimp only
  rw [output_of_result answer hres]
  dsimp only
  rw [getElem?_set_self' hnew, ← hatt, ← hl.2.1]

/-- **C62.** A URL is connected to at most once, plus once for every call that returned an error and every eviction. -/
theorem C62_connections_bounded (l : List (Step Url)) (url : Url) :
    (run l).connections url ≤ 1 + (run l).failures url + evictions l url := by
  suffices h : ∀ (l : List (Step Url)) (s : State Url), Inv s → ∀ n,
      s.connections url ≤ s.failures url + n + (if s.cache url = none then 0 else 1) →
      (runFrom s l).connections url ≤ 1 + (runFrom s l).failures url + (n + evictions l url) by
    have := h l {} inv_init 0 (by simp [State.connections])
    simpa [run] using this
  intro l
  induction l with
  | nil =>
    intro s _ n h
    simp only [runFrom, List.foldl_nil, evictions, List.count_nil]
    split at h <;> omega
  | cons a l ih =>
    intro s hs n h
    have hr : ∀ x, runFrom s (a :: l) = x → x = runFrom (step s a) l := fun x hx => hx.symm
    rw [hr _ rfl]
    have hev : evictions (a :: l) url = evictions l url + (if a = .evict url then 1 else 0) := by
      unfold evictions
      rw [List.count_cons]
      simp
    rw [hev]
    rcases step_cache s hs a url with ⟨h1, h2, h3, h4⟩ | ⟨h1, h2, h3, h3', h4⟩ | ⟨h1, h2, h3, h4⟩ | ⟨h1, h2, h3, h4⟩
    · rw [if_neg h4]
      exact ih _ (inv_step hs a) n (by rw [h1, h2, h3]; exact h)
    · subst h4
      rw [if_neg (by simp)]
      refine ih _ (inv_step hs _) n ?_
      rw [h1, h2, h3']
      rw [h3] at h
      simp at h ⊢
      omega
    · rw [if_pos h4]
      have := ih _ (inv_step hs a) (n + 1) (by rw [h1, h2, h3]; simp; split at h <;> omega)
      omega
    · rw [if_neg h4]
      refine ih _ (inv_step hs a) n ?_
      rw [h1, h2, h3]
      simp
      split at h <;> omega

/-- **C62.** With no failure and no eviction all calls for a URL use one connection. -/
theorem C62_one_connection (l : List (Step Url)) (url : Url) (hf : (run l).failures url = 0) (he : evictions l url = 0) :
    (run l).connections url ≤ 1 := by
  have := C62_connections_bounded l url
  omega

/-- **C62.** Every waiting call returns once it is polled after the network has answered. -/
theorem C62_calls_return (l : List (Step Url)) (i : Nat) (c : Call Url) (hi : (run l).calls[i]? = some c)
    (hw : c.phase = .waiting) (answer : Bool) :
    ∃ b, (run (l ++ [.poll i (some answer), .finish i])).calls[i]? = some { c with phase := .returned b } := by
  obtain ⟨url, attempt, phase⟩ := c
  dsimp only at hw
  subst hw
  obtain ⟨at', ha, _⟩ := (inv_run l).call i _ hi
  dsimp only at ha
  rw [run_append]
  show ∃ b, (finishCall (pollCall (run l) i (some answer)) i).calls[i]? = _
  have hp : pollCall (run l) i (some answer) = { run l with
      attempts := (run l).attempts.set attempt { at' with result := output at' (some answer) }
      calls := (run l).calls.set i { url, attempt, phase := match output at' (some answer) with
        | none => Phase.waiting
        | some true => .returned true
        | some false => .failing } } := by
    unfold pollCall
    rw [hi]
    dsimp only
    rw [ha]
    rfl
  rw [hp]
  have hout : ∃ b, output at' (some answer) = some b := by
    unfold output
    rcases at'.result with _ | b
    · exact ⟨answer, rfl⟩
    · exact ⟨b, rfl⟩
  obtain ⟨b, hb⟩ := hout
  rw [hb]
  refine ⟨b, ?_⟩
  cases b
  · unfold finishCall
    dsimp only
    rw [getElem?_set_self' hi]
    dsimp only
    rw [List.set_set]
    exact getElem?_set_self' hi
  · unfold finishCall
    dsimp only
    rw [getElem?_set_self' hi]
    dsimp only
    exact getElem?_set_self' hi

/-! ### One failed attempt can cost several connections -/

/-- Two calls wait for attempt 0, which is refused. The first returns its error; a third call connects, and works. Then the second
returns its error and invalidates the working connection, so a fourth call connects again. -/
def lateFailure : List (Step Nat) :=
  [.call 7, .call 7, .poll 0 (some false), .poll 1 none, .finish 0, .call 7, .poll 2 (some true), .finish 1, .call 7]

/-- **C62 (a stronger claim is false).** It is not true that a URL is connected to at most once plus once per failed attempt: a late
error of an old attempt removes a newer, working connection from the cache. -/
theorem C62_one_retry_per_failure_false :
    ¬ ∀ (l : List (Step Nat)) (url : Nat), evictions l url = 0 →
      (run l).connections url ≤ 1 + ((run l).attempts.filter fun a => a.url = url ∧ a.result = some false).length := by
  intro h
  have := h lateFailure 7 (by decide)
  revert this
  decide

/-! ### In process or over the network -/

/-- **C62.** The task a coordinator hands to `url` and the tasks that later fetch from `url`, each in the context of its own worker,
end up at the same worker: every context knows its own worker under a URL that the network delivers to that same worker, and all
resolvers deliver alike. -/
theorem C62_same_worker {Worker : Type} (net : Url → Worker) (ctx ctx' : Ctx Url Worker) (url : Url)
    (h : ∀ self w, ctx.localWorker = some (self, w) → net self = w)
    (h' : ∀ self w, ctx'.localWorker = some (self, w) → net self = w) :
    ctx.delivers (fun _ => net) url = ctx'.delivers (fun _ => net) url ∧ ctx.delivers (fun _ => net) url = net url := by
  have key : ∀ c : Ctx Url Worker, (∀ self w, c.localWorker = some (self, w) → net self = w) →
      c.delivers (fun _ => net) url = net url := by
    intro c hc
    unfold Ctx.delivers Ctx.reach
    rcases hl : c.localWorker with _ | ⟨self, w⟩
    · rfl
    · dsimp only
      by_cases hs : self = url
      · rw [if_pos hs]; subst hs; exact (hc self w hl).symm
      · rw [if_neg hs]
  exact ⟨(key ctx h).trans (key ctx' h').symm, key ctx h⟩

/-- **C62.** A task that runs on a worker because its plan was sent to `url` fetches whatever lives at `url` in process, and everything
else over the network. -/
theorem C62_own_data_in_process {Worker : Type} (w : Worker) (url other : Url) (user : Bool) :
    (workerCtx w url user).reach url = .inProcess w ∧
      (other ≠ url → (workerCtx w url user).reach other = .remote user) := by
  refine ⟨by simp [workerCtx, Ctx.reach], ?_⟩
  intro h
  simp [workerCtx, Ctx.reach, Ne.symm h]

/-- **C62 (needed).** If a coordinator names its local worker with a URL under which the network finds another worker, the plan goes to
one worker and the tasks that want its output ask another. -/
theorem C62_wrong_local_url : ∃ (net : Nat → Nat) (coordinator consumer : Ctx Nat Nat) (url : Nat),
    (∀ self w, consumer.localWorker = some (self, w) → net self = w) ∧
    coordinator.delivers (fun _ => net) url ≠ consumer.delivers (fun _ => net) url :=
  ⟨id, { localWorker := some (1, 5) }, { localWorker := some (2, 2) }, 1, by simp, by decide⟩

/-! ### The hypotheses are met -/

/-- two calls share a connection while another URL fails, and the second gets the channel at once -/
example : ((run (Url := Nat) [.call 1, .call 2, .poll 1 (some false), .finish 1, .poll 0 (some true), .call 1,
    .poll 2 (some false)]).calls.map fun c => (c.url, c.attempt, c.phase)) =
    [(1, 0, .returned true), (2, 1, .returned false), (1, 0, .returned true)] := by decide

/-- `C62_failure_not_reused`: a call after a failure gets a new attempt -/
example : ((run (Url := Nat) [.call 1, .poll 0 (some false), .finish 0, .call 1]).calls.map fun c => (c.attempt, c.phase)) =
    [(0, .returned false), (1, .waiting)] := by decide

/-- `C62_no_failure_left_behind`: the only caller gives up; the next one continues the same attempt -/
example : ((run (Url := Nat) [.call 1, .poll 0 none, .drop 0, .call 1]).calls.map fun c => (c.attempt, c.phase)) =
    [(0, .dropped), (0, .waiting)] := by decide

/-- `C62_connections_bounded` is tight: the late failure makes three connections out of two failed calls -/
example : (run lateFailure).connections 7 = 3 ∧ (run lateFailure).failures 7 = 2 := by decide

/-- `C62_same_worker`: a coordinator with a worker of its own and a consumer elsewhere -/
example : let net : Nat → Nat := fun u => u * 10
    ({ localWorker := some (3, 30) } : Ctx Nat Nat).delivers (fun _ => net) 3 =
      (workerCtx 40 4 true : Ctx Nat Nat).delivers (fun _ => net) 3 := by decide

end DD.Channels
