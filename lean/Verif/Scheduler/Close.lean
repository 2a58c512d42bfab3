import Verif.Scheduler.Progress
import Mathlib.Tactic.Common
/-
Closing the scheduler: who still waits once nothing can go on (async_scheduler.go:231-301, 351-363).
-/
namespace Verif.Scheduler

variable {K : Type} [DecidableEq K]

/-- The goroutine is on its way into `waitForWorker` or in it. -/
def Phase.asks : Phase K → Bool
  | .want _ | .waiting _ => true
  | _ => false

/-- One caller only: when the scheduler is closed, a worker goroutine is left to signal, or it has signalled, or nobody asks. -/
structure Solo (n u : Nat) (s : State K) : Prop where
  only : ∀ t, (s.threads t).asks = true → t = u
  left : s.closed = true → (∃ t, (s.threads t).isW = true) ∨ s.sig = true ∨ (s.threads u).asks = false
  staff : s.closed = false → ∀ t, t < n → (s.threads t).isW = true

omit [DecidableEq K] in
theorem solo_init (c : Config) (u : Nat) : Solo c.concurrency u (init (K := K) c) where
  only := by intro t h; simp only [init] at h; split at h <;> simp [Phase.asks] at h
  left := by intro h; simp [init] at h
  staff := by intro _ t ht; simp [init, ht, Phase.isW]

omit [DecidableEq K] in
/-- A step that moves one goroutine `t` to `p`. -/
theorem solo_goto {n u : Nat} {s s' : State K} (S : Solo n u s) {t : Nat} {p : Phase K} (hth : s'.threads = upd s.threads t p) (hcl : s'.closed = s.closed)
    (hsig : s.sig = true → s'.sig = true) (hp : (s.threads t).isW = true → p.isW = true) (ha : p.asks = true → (s.threads t).asks = true) : Solo n u s' where
  only := by
    intro t' h; rw [hth] at h
    by_cases e : t' = t
    · subst e; rw [upd_self] at h; exact S.only t' (ha h)
    · rw [upd_ne _ _ e] at h; exact S.only t' h
  left := by
    intro h; rw [hcl] at h
    rcases S.left h with ⟨t', h'⟩ | h' | h'
    · left; refine ⟨t', ?_⟩
      rw [hth]
      by_cases e : t' = t
      · subst e; rw [upd_self]; exact hp h'
      · rw [upd_ne _ _ e]; exact h'
    · exact .inr (.inl (hsig h'))
    · right; right
      rw [hth]
      by_cases e : u = t
      · subst e; rw [upd_self]
        cases hq : p.asks with
        | false => rfl
        | true => rw [ha hq] at h'; simp at h'
      · rw [upd_ne _ _ e]; exact h'
  staff := by
    intro h t' ht'; rw [hcl] at h; rw [hth]
    by_cases e : t' = t
    · subst e; rw [upd_self]; exact hp (S.staff h t' ht')
    · rw [upd_ne _ _ e]; exact S.staff h t' ht'

omit [DecidableEq K] in
theorem solo_same {n u : Nat} {s s' : State K} (S : Solo n u s) (hth : s'.threads = s.threads) (hcl : s'.closed = s.closed) (hsig : s'.sig = s.sig) : Solo n u s' where
  only := by rw [hth]; exact S.only
  left := by rw [hth, hcl, hsig]; exact S.left
  staff := by rw [hth, hcl]; exact S.staff

theorem solo_step {n u : Nat} (hn : 1 ≤ n) {s s' : State K} {l : Label K} (hl : ∀ x, l = .call x → x.caller = u) (S : Solo n u s) (h : step s l = some s') : Solo n u s' := by
  cases l with
  | close =>
    simp only [step, Option.some.injEq] at h; subst h
    refine ⟨S.only, fun _ => ?_, by simp⟩
    by_cases hc : s.closed = true
    · exact S.left hc
    · exact .inl ⟨0, S.staff (by simpa using hc) 0 (by omega)⟩
  | call x =>
    have hx := hl x rfl
    simp only [step] at h
    split at h
    · next ht =>
      split at h
      · simp at h
      · next hc =>
        simp only [Option.some.injEq] at h; subst h
        refine ⟨?_, ?_, ?_⟩
        · intro t ha
          by_cases e : t = x.caller
          · rw [e, hx]
          · refine S.only t ?_; simpa [State.goto, upd_ne _ _ e] using ha
        · intro hcl; exact absurd hcl hc
        · intro hcl t hlt
          have e : t ≠ x.caller := by
            rintro rfl
            have := S.staff hcl _ hlt
            rw [ht] at this; simp [Phase.isW] at this
          simpa [State.goto, upd_ne _ _ e] using S.staff hcl t hlt
    · simp at h
  | wake t =>
    simp only [step] at h
    split at h
    · next x ht =>
      split at h
      · next hs =>
        simp only [Option.some.injEq] at h; subst h
        have hu : t = u := S.only t (by rw [ht]; rfl)
        subst hu
        by_cases hc : s.closed = true
        · refine ⟨?_, ?_, by intro h; simp [hc, State.goto] at h⟩
          · intro t' ha
            by_cases e : t' = t
            · exact e
            · refine S.only t' ?_; simpa [State.goto, upd_ne _ _ e] using ha
          · intro _; right; right; simp [State.goto, hc, Phase.asks]
        · refine ⟨?_, ?_, ?_⟩
          · intro t' ha
            by_cases e : t' = t
            · exact e
            · refine S.only t' ?_; simpa [State.goto, upd_ne _ _ e] using ha
          · intro h; exact absurd h hc
          · intro h t' ht'
            have e : t' ≠ t := by
              rintro rfl
              have := S.staff h _ ht'
              rw [ht] at this; simp [Phase.isW] at this
            simpa [State.goto, upd_ne _ _ e] using S.staff h t' ht'
      · simp at h
    · simp at h
  | exit t =>
    simp only [step] at h
    split at h
    · next r ht =>
      split at h
      · next hc =>
        simp only [Option.some.injEq] at h; subst h
        refine ⟨?_, fun _ => .inr (.inl rfl), fun h => by have h : s.closed = false := h; rw [hc] at h; simp at h⟩
        intro t' ha
        by_cases e : t' = t
        · subst e; simp [State.goto, Phase.asks] at ha
        · refine S.only t' ?_; simpa [State.goto, upd_ne _ _ e] using ha
      · simp at h
    · simp at h
  | setDepth m => simp only [step, Option.some.injEq] at h; subst h; exact solo_same S rfl rfl rfl
  | setMax t m =>
    simp only [step] at h
    split at h
    · next ht =>
      simp only [State.setMax] at h
      split at h
      · split at h
        · simp only [Option.some.injEq] at h; subst h
          exact solo_goto S (t := t) rfl rfl id (by simp [ht, Phase.isW]) (by simp [Phase.asks])
        · simp only [Option.some.injEq] at h; subst h
          exact solo_same S rfl rfl rfl
      · simp at h
    · simp at h
  | lock t pick =>
    simp only [step] at h
    split at h
    · next x ht =>
      simp only [State.lock] at h
      split at h
      · simp only [Option.some.injEq] at h; subst h
        exact solo_goto S (t := t) rfl rfl id (by simp [ht, Phase.isW]) (by simp [ht, Phase.asks])
      · split at h
        · simp only [Option.some.injEq] at h; subst h
          exact solo_goto S (t := t) rfl rfl id (by simp [ht, Phase.isW]) (by simp [ht, Phase.asks])
        · simp only [Option.map_eq_some_iff] at h
          obtain ⟨⟨s1, w⟩, hp, h⟩ := h
          subst h
          unfold State.poolGet at hp
          split at hp
          · split at hp
            · simp only [Option.some.injEq, Prod.mk.injEq] at hp; obtain ⟨hp, rfl⟩ := hp; subst hp
              exact solo_goto S (t := t) rfl rfl id (by simp [ht, Phase.isW]) (by simp [ht, Phase.asks])
            · simp at hp
          · simp only [Option.some.injEq, Prod.mk.injEq] at hp; obtain ⟨hp, rfl⟩ := hp; subst hp
            exact solo_goto S (t := t) rfl rfl id (by simp [ht, Phase.isW]) (by simp [ht, Phase.asks])
    · simp at h
  | put t =>
    simp only [step] at h
    split at h
    · next w x ht =>
      simp only [Option.map_eq_some_iff] at h
      obtain ⟨q, _, rfl⟩ := h
      exact solo_goto S (t := t) rfl rfl id (by simp [ht, Phase.isW]) (by simp [Phase.asks])
    · simp at h
  | cancel t =>
    simp only [step] at h
    split at h
    · next w x ht =>
      split at h
      · simp only [Option.some.injEq] at h; subst h
        exact solo_goto S (t := t) rfl rfl id (by simp [ht, Phase.isW]) (by simp [Phase.asks])
      · simp at h
    · simp at h
  | send t =>
    simp only [step] at h
    split at h
    · next w ht =>
      simp only [State.send] at h
      split at h
      · simp only [Option.some.injEq] at h; subst h
        exact solo_goto S (t := t) rfl rfl id (by simp [ht, Phase.isW]) (by simp [Phase.asks])
      · simp at h
    · next w ht =>
      simp only [State.send] at h
      split at h
      · simp only [Option.some.injEq] at h; subst h
        exact solo_goto S (t := t) rfl rfl id (by simp [Phase.isW]) (by simp [Phase.asks])
      · simp at h
    · simp at h
  | eval t =>
    simp only [step] at h
    split at h
    · simp only [Option.some.injEq] at h; subst h
      exact solo_goto S (t := t) rfl rfl id (by simp [Phase.isW]) (by simp [Phase.asks])
    · simp at h
  | recv t =>
    simp only [step] at h
    split at h
    · simp only [State.recv] at h
      split at h
      · simp only [Option.some.injEq] at h; subst h
        exact solo_goto S (t := t) rfl rfl id (by simp [Phase.isW]) (by simp [Phase.asks])
      · split at h
        · simp only [Option.some.injEq] at h; subst h
          exact solo_goto S (t := t) rfl rfl id (by simp [Phase.isW]) (by simp [Phase.asks])
        · simp at h
    · simp at h
  | peek t =>
    simp only [step] at h
    split at h
    · simp only [Option.some.injEq] at h; subst h
      unfold State.peekStep
      split
      · exact solo_goto S (t := t) rfl rfl id (by simp [Phase.isW]) (by simp [Phase.asks])
      · split
        · exact solo_goto S (t := t) rfl rfl id (by simp [Phase.isW]) (by simp [Phase.asks])
        · exact solo_goto S (t := t) rfl rfl id (by simp [Phase.isW]) (by simp [Phase.asks])
    · simp at h
  | finish t =>
    simp only [step] at h
    split at h
    · simp only [Option.some.injEq] at h; subst h
      exact solo_goto S (t := t) rfl rfl id (by simp [Phase.isW]) (by simp [Phase.asks])
    · simp at h
  | complete t =>
    simp only [step] at h
    split at h
    · simp only [Option.some.injEq] at h; subst h
      exact solo_goto S (t := t) rfl rfl id (by simp [Phase.isW]) (by simp [Phase.asks])
    · simp at h
  | release t =>
    simp only [step] at h
    split at h
    · simp only [Option.some.injEq] at h; subst h
      unfold State.release
      split
      · exact solo_goto S (t := t) rfl rfl id (by simp [Phase.isW]) (by simp [Phase.asks])
      · exact solo_goto S (t := t) rfl rfl id (by simp [Phase.isW]) (by simp [Phase.asks])
    · simp at h
  | signal t =>
    simp only [step] at h
    split at h
    · simp only [Option.some.injEq] at h; subst h
      exact solo_goto S (t := t) rfl rfl (by intro e; show (if s.closed = true then s.sig else true) = true; split <;> simp [e]) (by simp [Phase.isW]) (by simp [Phase.asks])
    · simp at h
  | xfer t =>
    simp only [step] at h
    split at h
    · next m i ht =>
      simp only [Option.some.injEq] at h; subst h
      unfold State.xferStep
      split
      · split
        · exact solo_goto S (t := t) rfl rfl id (by simp [ht, Phase.isW]) (by simp [Phase.asks])
        · exact solo_goto S (t := t) rfl rfl id (by simp [ht, Phase.isW]) (by simp [Phase.asks])
      · exact solo_goto S (t := t) rfl rfl id (by simp [ht, Phase.isW]) (by simp [Phase.asks])
    · simp at h

theorem solo_run {n u : Nat} (hn : 1 ≤ n) {s s' : State K} {ls : List (Label K)} (hl : ∀ x, Label.call x ∈ ls → x.caller = u) (S : Solo n u s)
    (h : run s ls = some s') : Solo n u s' := by
  induction ls generalizing s with
  | nil => simp only [run, Option.some.injEq] at h; subst h; exact S
  | cons l ls ih =>
    simp only [run, Option.bind_eq_some_iff] at h
    obtain ⟨s1, e1, e2⟩ := h
    exact ih (fun x hx => hl x (List.mem_cons_of_mem _ hx)) (solo_step hn (fun x e => hl x (by rw [e]; simp)) S e1) e2

/-- Closed, no signal left, and nobody there who could send one. -/
structure Dead (s : State K) : Prop where
  closed : s.closed = true
  sig : s.sig = false
  gone : ∀ t, (s.threads t).isW = false

omit [DecidableEq K] in
theorem dead_goto {s s' : State K} (D : Dead s) {t : Nat} {p : Phase K} (hth : s'.threads = upd s.threads t p) (hcl : s'.closed = s.closed)
    (hsig : s'.sig = s.sig) (hp : p.isW = false) (hold : ∀ x, s.threads t ≠ .waiting x) :
    Dead s' ∧ ∀ t' x, s.threads t' = .waiting x → s'.threads t' = .waiting x := by
  refine ⟨⟨by rw [hcl]; exact D.closed, by rw [hsig]; exact D.sig, ?_⟩, ?_⟩
  · intro t'
    rw [hth]
    by_cases e : t' = t
    · subst e; rw [upd_self]; exact hp
    · rw [upd_ne _ _ e]; exact D.gone t'
  · intro t' x hx
    rw [hth]
    by_cases e : t' = t
    · subst e; exact absurd hx (hold x)
    · rw [upd_ne _ _ e]; exact hx

theorem dead_step {s s' : State K} {l : Label K} (D : Dead s) (h : step s l = some s') :
    Dead s' ∧ ∀ t x, s.threads t = .waiting x → s'.threads t = .waiting x := by
  cases l with
  | close => simp only [step, Option.some.injEq] at h; subst h; exact ⟨⟨rfl, D.sig, D.gone⟩, fun _ _ h => h⟩
  | setDepth m => simp only [step, Option.some.injEq] at h; subst h; exact ⟨⟨D.closed, D.sig, D.gone⟩, fun _ _ h => h⟩
  | call x => simp only [step, D.closed] at h; split at h <;> simp at h
  | wake t => simp only [step, D.sig] at h; split at h <;> simp at h
  | setMax t m =>
    simp only [step] at h
    split at h
    · next ht =>
      simp only [State.setMax] at h
      split at h
      · split at h
        · simp only [Option.some.injEq] at h; subst h
          exact dead_goto D (t := t) rfl rfl rfl rfl (by simp [ht])
        · simp only [Option.some.injEq] at h; subst h
          exact ⟨⟨D.closed, D.sig, D.gone⟩, fun _ _ h => h⟩
      · simp at h
    · simp at h
  | lock t pick =>
    simp only [step] at h
    split at h
    · next x ht =>
      simp only [State.lock] at h
      have np : ∀ r : Bool × Bool, ∀ w, (if r.1 = false then Phase.blockAdd w x else if r.2 then Phase.enq w else .idle).isW = false := by
        intro r w; split
        · rfl
        · split <;> rfl
      split at h
      · simp only [Option.some.injEq] at h; subst h
        exact dead_goto D (t := t) rfl rfl rfl (np (_, false) _) (by simp [ht])
      · split at h
        · simp only [Option.some.injEq] at h; subst h
          exact dead_goto D (t := t) rfl rfl rfl rfl (by simp [ht])
        · simp only [Option.map_eq_some_iff] at h
          obtain ⟨⟨s1, w⟩, hp, h⟩ := h
          subst h
          unfold State.poolGet at hp
          split at hp
          · split at hp
            · simp only [Option.some.injEq, Prod.mk.injEq] at hp; obtain ⟨hp, rfl⟩ := hp; subst hp
              exact dead_goto D (t := t) rfl rfl rfl (np (_, true) _) (by simp [ht])
            · simp at hp
          · simp only [Option.some.injEq, Prod.mk.injEq] at hp; obtain ⟨hp, rfl⟩ := hp; subst hp
            exact dead_goto D (t := t) rfl rfl rfl (np (_, true) _) (by simp [ht])
    · simp at h
  | put t =>
    simp only [step] at h
    split at h
    · next w x ht =>
      simp only [Option.map_eq_some_iff] at h
      obtain ⟨q, _, rfl⟩ := h
      exact dead_goto D (t := t) rfl rfl rfl rfl (by simp [ht])
    · simp at h
  | cancel t =>
    simp only [step] at h
    split at h
    · next w x ht =>
      split at h
      · simp only [Option.some.injEq] at h; subst h
        exact dead_goto D (t := t) rfl rfl rfl rfl (by simp [ht])
      · simp at h
    · simp at h
  | send t =>
    have g := D.gone t
    simp only [step] at h
    split at h
    · next w ht =>
      simp only [State.send] at h
      split at h
      · simp only [Option.some.injEq] at h; subst h
        exact dead_goto D (t := t) rfl rfl rfl rfl (by simp [ht])
      · simp at h
    · next w ht => rw [ht] at g; simp [Phase.isW] at g
    · simp at h
  | xfer t =>
    simp only [step] at h
    split at h
    · next m i ht =>
      simp only [Option.some.injEq] at h; subst h
      unfold State.xferStep
      split
      · split
        · exact dead_goto D (t := t) rfl rfl rfl rfl (by simp [ht])
        · exact dead_goto D (t := t) rfl rfl rfl rfl (by simp [ht])
      · exact dead_goto D (t := t) rfl rfl rfl rfl (by simp [ht])
    · simp at h
  | eval t | recv t | exit t | peek t | finish t | complete t | release t | signal t =>
    have g := D.gone t
    simp only [step] at h
    split at h
    · next ht => rw [ht] at g; simp [Phase.isW] at g
    · simp at h

theorem dead_run {s s' : State K} {ls : List (Label K)} (D : Dead s) (h : run s ls = some s') : ∀ t x, s.threads t = .waiting x → s'.threads t = .waiting x := by
  induction ls generalizing s with
  | nil => simp only [run, Option.some.injEq] at h; subst h; exact fun _ _ h => h
  | cons l ls ih =>
    simp only [run, Option.bind_eq_some_iff] at h
    obtain ⟨s1, e1, e2⟩ := h
    obtain ⟨D1, k1⟩ := dead_step D e1
    exact fun t x hx => ih D1 e2 t x (k1 t x hx)

end Verif.Scheduler
