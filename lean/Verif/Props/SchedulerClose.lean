import Verif.Scheduler.Close
import Verif.Props.SchedulerProgress
/-
C95: what becomes of the goroutines inside the job scheduler when it is closed (streams/async_scheduler.go).
-/
namespace Verif.Scheduler

variable {K : Type} [DecidableEq K]

/-- Every goroutine has left the scheduler: callers have returned, worker goroutines have ended. -/
def Spec.deserted (s : State K) : Prop := ∀ t, s.threads t = .idle ∨ s.threads t = .wExit

/-- Nobody inside can go on without help from outside. -/
def Spec.atRest (s : State K) : Prop := ∀ l, Spec.unaided l → step s l = none

/-- C95, partial: once nothing can go on any more in a closed scheduler, every worker goroutine has ended and every caller has returned, except for those in
`waitForWorker`, for whom there is no signal left. Missing: those (`C95_violated`), and limits that were lowered, where a worker can be left over (`C20_violated`). -/
theorem C95_rest_partial {c : Config} {ls : List (Label K)} {s : State K} (h : run (init c) ls = some s) (hg : Grows (init c) ls) (hc : s.closed = true)
    (hr : Spec.atRest s) (t : Nat) : s.threads t = .idle ∨ s.threads t = .wExit ∨ (s.sig = false ∧ ∃ x, s.threads t = .waiting x) := by
  have N := kept_run (good_init c) (kept_init c) hg h
  have hrw : s.rw = false := by
    cases hrw : s.rw with
    | false => rfl
    | true =>
      obtain ⟨t, n, i, ht⟩ := N.hasxf hrw
      have ht : (s.threads t).xf = some (n, i) := ht
      have := hr (.xfer t) trivial
      cases hp : s.threads t <;> rw [hp] at ht <;> simp [Phase.xf] at ht
      simp [step, hp] at this
  have snd : ∀ w, ¬ (s.threads t = .enq w ∨ s.threads t = .wEnq w) := by
    intro w e
    have := C20_no_deadlock_partial h hg e hrw
    rw [hr (.send t) trivial] at this; simp at this
  cases hp : s.threads t with
  | idle => exact .inl rfl
  | wExit => exact .inr (.inl rfl)
  | waiting x =>
    refine .inr (.inr ⟨?_, x, rfl⟩)
    have := hr (.wake t) trivial
    simp only [step, hp] at this
    cases hs : s.sig with
    | false => rfl
    | true => rw [hs] at this; simp at this
  | want x =>
    exfalso
    have := hr (.lock t none) trivial
    simp only [step, hp, State.lock, State.poolGet, Option.map_some] at this
    split at this
    · simp at this
    · split at this <;> simp at this
  | blockAdd w x => have := hr (.cancel t) trivial; simp [step, hp, hc] at this
  | enq w => exact absurd (.inl hp) (snd w)
  | wEnq w => exact absurd (.inr hp) (snd w)
  | xfer n i => have := hr (.xfer t) trivial; simp [step, hp] at this
  | wTop => have := hr (.eval t) trivial; simp [step, hp] at this
  | wWait r => have := hr (.exit t) trivial; simp [step, hp, hc] at this
  | wGot w => have := hr (.peek t) trivial; simp [step, hp] at this
  | wProc w x => have := hr (.finish t) trivial; simp [step, hp] at this
  | wAdv w x => have := hr (.complete t) trivial; simp [step, hp] at this
  | wRel w => have := hr (.release t) trivial; simp [step, hp] at this
  | wSig => have := hr (.signal t) trivial; simp [step, hp] at this

/-- C95, partial: with one calling goroutine everybody gets out. Once nothing can go on in a closed scheduler that only goroutine `u` has ever called, it is deserted.
Missing: two callers (`C95_two_waiting`), and limits that were lowered. -/
theorem C95_single_partial {c : Config} {ls : List (Label K)} {s : State K} (h : run (init c) ls = some s) (hg : Grows (init c) ls) (hn : 1 ≤ c.concurrency)
    {u : Nat} (hu : ∀ x, Label.call x ∈ ls → x.caller = u) (hc : s.closed = true) (hr : Spec.atRest s) : Spec.deserted s := by
  have S := solo_run hn hu (solo_init c u) h
  intro t
  rcases C95_rest_partial h hg hc hr t with e | e | ⟨hs, x, e⟩
  · exact .inl e
  · exact .inr e
  · exfalso
    have htu : t = u := S.only t (by rw [e]; rfl)
    rcases S.left hc with ⟨t', h'⟩ | h' | h'
    · rcases C95_rest_partial h hg hc hr t' with e' | e' | ⟨_, y, e'⟩ <;> rw [e'] at h' <;> simp [Phase.isW] at h'
    · rw [hs] at h'; simp at h'
    · rw [← htu, e] at h'; simp [Phase.asks] at h'

/-- C95: nothing is started after the scheduler was closed, whatever the goroutines do. -/
theorem C95_no_start {s s' : State K} {ls : List (Label K)} (hc : s.closed = true) (h : run s ls = some s') : s'.closed = true ∧ starts s'.log = starts s.log := by
  induction ls generalizing s with
  | nil => simp only [run, Option.some.injEq] at h; subst h; exact ⟨hc, rfl⟩
  | cons l ls ih =>
    simp only [run, Option.bind_eq_some_iff] at h
    obtain ⟨s1, e1, e2⟩ := h
    have key : s1.closed = true ∧ starts s1.log = starts s.log := by
      by_cases hi : l.inner = true
      · refine ⟨(unaided_closed hi e1).trans hc, ?_⟩
        cases l with
        | complete t =>
          simp only [step] at e1
          split at e1
          · simp only [Option.some.injEq] at e1; subst e1
            simp [starts]
          · simp at e1
        | peek t =>
          simp only [step] at e1
          split at e1
          · simp only [Option.some.injEq] at e1; subst e1
            simp [State.peekStep, hc, State.goto]
          · simp at e1
        | lock t pick =>
          simp only [step] at e1
          split at e1
          · simp only [State.lock] at e1
            split at e1
            · simp only [Option.some.injEq] at e1; subst e1; rfl
            · split at e1
              · simp only [Option.some.injEq] at e1; subst e1; rfl
              · simp only [Option.map_eq_some_iff] at e1
                obtain ⟨⟨s2, w⟩, hp, e1⟩ := e1
                subst e1
                unfold State.poolGet at hp
                split at hp
                · split at hp
                  · simp only [Option.some.injEq, Prod.mk.injEq] at hp; obtain ⟨hp, rfl⟩ := hp; subst hp; rfl
                  · simp at hp
                · simp only [Option.some.injEq, Prod.mk.injEq] at hp; obtain ⟨hp, rfl⟩ := hp; subst hp; rfl
          · simp at e1
        | put t =>
          simp only [step] at e1
          split at e1
          · simp only [Option.map_eq_some_iff] at e1; obtain ⟨q, _, rfl⟩ := e1; rfl
          · simp at e1
        | call x => simp [Label.inner] at hi
        | setMax t n => simp [Label.inner] at hi
        | setDepth n => simp [Label.inner] at hi
        | close => simp [Label.inner] at hi
        | send t =>
          simp only [step, State.send] at e1
          split at e1
          · split at e1 <;> simp only [Option.some.injEq, reduceCtorEq] at e1; subst e1; rfl
          · split at e1 <;> simp only [Option.some.injEq, reduceCtorEq] at e1; subst e1; rfl
          · simp at e1
        | recv t =>
          simp only [step, State.recv] at e1
          split at e1
          · split at e1
            · simp only [Option.some.injEq] at e1; subst e1; rfl
            · split at e1 <;> simp only [Option.some.injEq, reduceCtorEq] at e1; subst e1; rfl
          · simp at e1
        | release t =>
          simp only [step] at e1
          split at e1
          · simp only [Option.some.injEq] at e1; subst e1; unfold State.release; split <;> rfl
          · simp at e1
        | xfer t =>
          simp only [step] at e1
          split at e1
          · simp only [Option.some.injEq] at e1; subst e1; unfold State.xferStep
            split
            · split <;> rfl
            · rfl
          · simp at e1
        | _ =>
          simp only [step] at e1
          split at e1
          · first
              | (simp only [Option.some.injEq] at e1; subst e1; rfl)
              | (split at e1 <;> first | (simp at e1; done) | (simp only [Option.some.injEq] at e1; subst e1; rfl))
          · simp at e1
      · cases l with
        | call x => simp only [step, hc] at e1; split at e1 <;> simp at e1
        | close => simp only [step, Option.some.injEq] at e1; subst e1; exact ⟨rfl, rfl⟩
        | setDepth n => simp only [step, Option.some.injEq] at e1; subst e1; exact ⟨hc, rfl⟩
        | setMax t n =>
          simp only [step] at e1
          split at e1
          · simp only [State.setMax] at e1
            split at e1
            · split at e1 <;> (simp only [Option.some.injEq] at e1; subst e1; exact ⟨hc, rfl⟩)
            · simp at e1
          · simp at e1
        | _ => simp [Label.inner] at hi
    obtain ⟨a, b⟩ := ih key.1 e2
    exact ⟨a, b.trans key.2⟩

/-- How far a worker goroutine is from its end, in a closed scheduler. -/
private def far : Phase K → Nat
  | .wProc _ _ => 8
  | .wAdv _ _ => 7
  | .wGot _ => 7
  | .wRel _ => 6
  | .wEnq _ => 4
  | .wSig => 4
  | .wTop => 3
  | .wWait _ => 2
  | _ => 0

/-- Reached without lowering the limit, closed, no limit change going on. -/
private def Shut (c : Config) (s : State K) : Prop := (∃ ls, run (init c) ls = some s ∧ Grows (init c) ls) ∧ s.closed = true ∧ s.rw = false

private theorem shut_next {c : Config} {s s' : State K} {l : Label K} (S : Shut c s) (hl : Spec.unaided l) (h : step s l = some s') (hrw : s'.rw = s.rw) : Shut c s' := by
  obtain ⟨⟨ls, h1, h2⟩, h3, h4⟩ := S
  refine ⟨⟨ls ++ [l], run_append h1 (by simp [run, h]), grows_append h1 h2 (grows_unaided (by simpa using hl))⟩, (unaided_closed (inner_of hl) h).trans h3, hrw.trans h4⟩

private theorem ends {c : Config} (t : Nat) : ∀ (m : Nat) {s : State K}, Shut c s → (s.threads t).isW = true → far (s.threads t) ≤ m →
    ∃ ls s', run s ls = some s' ∧ (∀ l ∈ ls, Spec.unaided l) ∧ Shut c s' ∧ s'.threads t = .wExit ∧ s'.sig = true ∧ ∀ u, u ≠ t → s'.threads u = s.threads u := by
  intro m
  induction m with
  | zero => intro s _ hw hm; cases hp : s.threads t <;> rw [hp] at hw hm <;> simp [Phase.isW, far] at hw hm
  | succ m ih =>
    intro s S hw hm
    have go : ∀ (l : Label K) (s' : State K) (p : Phase K), Spec.unaided l → step s l = some s' → s'.rw = s.rw → s'.threads = upd s.threads t p → p.isW = true → far p ≤ m →
        ∃ ls s', run s ls = some s' ∧ (∀ l ∈ ls, Spec.unaided l) ∧ Shut c s' ∧ s'.threads t = .wExit ∧ s'.sig = true ∧ ∀ u, u ≠ t → s'.threads u = s.threads u := by
      intro l s' p hl h hrw hth hp hf
      obtain ⟨ls, s2, r1, r2, r3, r4, r5, r6⟩ := ih (shut_next S hl h hrw) (by rw [hth, upd_self]; exact hp) (by rw [hth, upd_self]; exact hf)
      refine ⟨l :: ls, s2, by simp only [run, h, Option.bind_some]; exact r1, ?_, r3, r4, r5, fun u hu => by rw [r6 u hu, hth, upd_ne _ _ hu]⟩
      intro l' hl'
      rcases List.mem_cons.1 hl' with rfl | hl'
      · exact hl
      · exact r2 l' hl'
    have hc := S.2.1
    cases hp : s.threads t with
    | wTop => rw [hp] at hm; simp only [far] at hm; exact go (.eval t) (s.goto t (.wWait s.cur)) (.wWait s.cur) trivial (by simp only [step, hp]) rfl rfl rfl (by simp only [far]; omega)
    | wWait r =>
      have h : step s (.exit t) = some { (s.goto t .wExit) with sig := true } := by simp only [step, hp, hc, if_true]
      exact ⟨[.exit t], _, by simp only [run, h, Option.bind_some], by simp [Spec.unaided], shut_next S (l := .exit t) trivial h rfl, goto_self s t _, rfl, fun u hu => upd_ne _ _ hu⟩
    | wGot w => rw [hp] at hm; simp only [far] at hm; exact go (.peek t) (s.goto t (.wRel w)) _ trivial (by simp only [step, hp, State.peekStep, hc, if_true]) rfl rfl rfl (by simp only [far]; omega)
    | wProc w x => rw [hp] at hm; simp only [far] at hm; exact go (.finish t) ((s.setQ w (s.wk w).queue.dequeue.1).goto t (.wAdv w x)) (.wAdv w x) trivial (by simp only [step, hp]) rfl rfl rfl (by simp only [far]; omega)
    | wAdv w x => rw [hp] at hm; simp only [far] at hm; exact go (.complete t) { (s.goto t (.wRel w)) with log := s.log ++ [.comp x] } (.wRel w) trivial (by simp only [step, hp]) rfl rfl rfl (by simp only [far]; omega)
    | wRel w =>
      rw [hp] at hm; simp only [far] at hm
      have h : step s (.release t) = some (s.release t w) := by simp only [step, hp]
      by_cases hd : (s.wk w).queue.done = true
      · exact go (.release t) _ .wSig trivial h (by unfold State.release; rw [if_pos hd]; rfl) (by unfold State.release; rw [if_pos hd]; rfl) rfl (by simp only [far]; omega)
      · exact go (.release t) _ (.wEnq w) trivial h (by unfold State.release; rw [if_neg hd]; rfl) (by unfold State.release; rw [if_neg hd]; rfl) rfl (by simp only [far]; omega)
    | wSig => rw [hp] at hm; simp only [far] at hm; exact go (.signal t) { (s.goto t .wTop) with sig := if s.closed then s.sig else true } .wTop trivial (by simp only [step, hp]) rfl rfl rfl (by simp only [far]; omega)
    | wEnq w =>
      rw [hp] at hm; simp only [far] at hm
      obtain ⟨⟨ls, h1, h2⟩, _, hrw⟩ := S
      have := C20_no_deadlock_partial h1 h2 (.inr hp) hrw
      obtain ⟨s', h⟩ := Option.isSome_iff_exists.1 this
      have h' := h
      simp only [step, hp, State.send] at h
      split at h
      · simp only [Option.some.injEq] at h
        exact go (.send t) s' .wTop trivial h' (by rw [← h]; rfl) (by rw [← h]; rfl) rfl (by simp only [far]; omega)
      · simp at h
    | _ => rw [hp] at hw; simp [Phase.isW] at hw

/-- C95, partial: in a closed scheduler every worker goroutine can end by its own steps, whatever the others do in the meantime is not needed.
Missing: limits that were lowered, where it can block for ever on a full channel. -/
theorem C95_worker_ends_partial {c : Config} {ls : List (Label K)} {s : State K} (h : run (init c) ls = some s) (hg : Grows (init c) ls) (hc : s.closed = true) (hrw : s.rw = false)
    {t : Nat} (ht : (s.threads t).isW = true) : ∃ ls' s', run s ls' = some s' ∧ (∀ l ∈ ls', Spec.unaided l) ∧ s'.threads t = .wExit ∧ ∀ u, u ≠ t → s'.threads u = s.threads u := by
  obtain ⟨ls', s', h1, h2, _, h4, _, h6⟩ := ends t _ ⟨⟨ls, h, hg⟩, hc, hrw⟩ ht (Nat.le_refl _)
  exact ⟨ls', s', h1, h2, h4, h6⟩

private theorem workers_below {s s' : State K} {n : Nat} {ls : List (Label K)} (hb : ∀ t, (s.threads t).isW = true → t < n) (h : run s ls = some s') :
    ∀ t, (s'.threads t).isW = true → t < n := by
  induction ls generalizing s with
  | nil => simp only [run, Option.some.injEq] at h; subst h; exact hb
  | cons l ls ih =>
    simp only [run, Option.bind_eq_some_iff] at h
    obtain ⟨s1, e1, e2⟩ := h
    refine ih ?_ e2
    have go : ∀ (t : Nat) (p : Phase K), s1.threads = upd s.threads t p → (p.isW = true → (s.threads t).isW = true) → ∀ u, (s1.threads u).isW = true → u < n := by
      intro t p hth hp u hu
      rw [hth] at hu
      by_cases e : u = t
      · subst e; rw [upd_self] at hu; exact hb u (hp hu)
      · rw [upd_ne _ _ e] at hu; exact hb u hu
    cases l with
    | close => simp only [step, Option.some.injEq] at e1; subst e1; exact hb
    | setDepth m => simp only [step, Option.some.injEq] at e1; subst e1; exact hb
    | setMax t m =>
      simp only [step] at e1
      split at e1
      · simp only [State.setMax] at e1
        split at e1
        · split at e1
          · simp only [Option.some.injEq] at e1; exact go t (.xfer m 0) (by rw [← e1]; rfl) (by simp [Phase.isW])
          · simp only [Option.some.injEq] at e1; subst e1; exact hb
        · simp at e1
      · simp at e1
    | lock t pick =>
      simp only [step] at e1
      split at e1
      · next x ht =>
        have np : ∀ (a b : Bool) w, (if a = false then Phase.blockAdd w x else if b then Phase.enq w else .idle).isW = true → (s.threads t).isW = true := by
          intro a b w; split
          · simp [Phase.isW]
          · split <;> simp [Phase.isW]
        simp only [State.lock] at e1
        split at e1
        · simp only [Option.some.injEq] at e1; exact go t _ (by rw [← e1]; rfl) (np _ false _)
        · split at e1
          · simp only [Option.some.injEq] at e1; exact go t (.waiting x) (by rw [← e1]; rfl) (by simp [Phase.isW])
          · simp only [Option.map_eq_some_iff] at e1
            obtain ⟨⟨s2, w⟩, hp, e1⟩ := e1
            subst e1
            unfold State.poolGet at hp
            split at hp
            · split at hp
              · simp only [Option.some.injEq, Prod.mk.injEq] at hp; obtain ⟨hp, rfl⟩ := hp; subst hp
                exact go t _ rfl (np _ true _)
              · simp at hp
            · simp only [Option.some.injEq, Prod.mk.injEq] at hp; obtain ⟨hp, rfl⟩ := hp; subst hp
              exact go t _ rfl (np _ true _)
      · simp at e1
    | call x =>
      simp only [step] at e1
      split at e1
      · split at e1
        · simp at e1
        · simp only [Option.some.injEq] at e1; exact go x.caller (.want x) (by rw [← e1]; rfl) (by simp [Phase.isW])
      · simp at e1
    | put t =>
      simp only [step] at e1
      split at e1
      · simp only [Option.map_eq_some_iff] at e1; obtain ⟨q, _, rfl⟩ := e1; exact go t .idle rfl (by simp [Phase.isW])
      · simp at e1
    | cancel t =>
      simp only [step] at e1
      split at e1
      · split at e1
        · simp only [Option.some.injEq] at e1; exact go t .idle (by rw [← e1]; rfl) (by simp [Phase.isW])
        · simp at e1
      · simp at e1
    | wake t =>
      simp only [step] at e1
      split at e1
      · next x ht =>
        split at e1
        · simp only [Option.some.injEq] at e1
          exact go t (if s.closed then .idle else .want x) (by rw [← e1]; rfl) (by split <;> simp [Phase.isW])
        · simp at e1
      · simp at e1
    | send t =>
      simp only [step, State.send] at e1
      split at e1
      · split at e1 <;> simp only [Option.some.injEq, reduceCtorEq] at e1; exact go t .idle (by rw [← e1]; rfl) (by simp [Phase.isW])
      · next ht =>
        split at e1 <;> simp only [Option.some.injEq, reduceCtorEq] at e1; exact go t .wTop (by rw [← e1]; rfl) (by simp [ht, Phase.isW])
      · simp at e1
    | xfer t =>
      simp only [step] at e1
      split at e1
      · next n i ht =>
        have : ∃ p, (s.xferStep t n i).threads = upd s.threads t p ∧ p.isW = false := by
          unfold State.xferStep
          split
          · split
            · exact ⟨_, rfl, rfl⟩
            · exact ⟨_, rfl, rfl⟩
          · exact ⟨_, rfl, rfl⟩
        obtain ⟨p, hp, hf⟩ := this
        simp only [Option.some.injEq] at e1
        exact go t p (by rw [← e1]; exact hp) (by rw [hf]; simp)
      · simp at e1
    | eval t | recv t | exit t | peek t | finish t | complete t | release t | signal t =>
      have hw : (s.threads t).isW = true := by
        simp only [step] at e1
        split at e1
        · next ht => rw [ht]; rfl
        · simp at e1
      have : ∃ p, s1.threads = upd s.threads t p := by
        simp only [step] at e1
        split at e1 <;> try (simp at e1; done)
        first
          | (simp only [Option.some.injEq] at e1; subst e1; exact ⟨_, rfl⟩)
          | (split at e1 <;> first | (simp at e1; done) | (simp only [Option.some.injEq] at e1; subst e1; exact ⟨_, rfl⟩))
          | (simp only [State.recv] at e1
             split at e1
             · simp only [Option.some.injEq] at e1; subst e1; exact ⟨_, rfl⟩
             · split at e1 <;> simp only [Option.some.injEq, reduceCtorEq] at e1; subst e1; exact ⟨_, rfl⟩)
          | (simp only [Option.some.injEq] at e1; subst e1; simp only [State.peekStep]; split
             · exact ⟨_, rfl⟩
             · split <;> exact ⟨_, rfl⟩)
          | (simp only [Option.some.injEq] at e1; subst e1; simp only [State.release]; split <;> exact ⟨_, rfl⟩)
      obtain ⟨p, hp⟩ := this
      exact go t p hp (fun _ => hw)

private theorem all_end {c : Config} : ∀ (n : Nat) {s : State K}, Shut c s → (∀ t, (s.threads t).isW = true → t < n) →
    ∃ ls s', run s ls = some s' ∧ (∀ l ∈ ls, Spec.unaided l) ∧ Shut c s' ∧ (∀ t, (s'.threads t).isW = false) ∧ ∀ u x, s.threads u = .waiting x → s'.threads u = .waiting x := by
  intro n
  induction n with
  | zero =>
    intro s S hb
    refine ⟨[], s, rfl, by simp, S, fun t => ?_, fun _ _ h => h⟩
    cases hw : (s.threads t).isW with
    | false => rfl
    | true => exact absurd (hb t hw) (by omega)
  | succ n ih =>
    intro s S hb
    by_cases hw : (s.threads n).isW = true
    · obtain ⟨ls, s', r1, r2, r3, r4, _, r6⟩ := ends n _ S hw (Nat.le_refl _)
      obtain ⟨ls2, s2, q1, q2, q3, q4, q5⟩ := ih r3 (fun t ht => by
        by_cases e : t = n
        · subst e; rw [r4] at ht; simp [Phase.isW] at ht
        · rw [r6 t e] at ht; have := hb t ht; omega)
      refine ⟨ls ++ ls2, s2, run_append r1 q1, ?_, q3, q4, fun u x hu => q5 u x ?_⟩
      · intro l hl
        rcases List.mem_append.1 hl with hl | hl
        · exact r2 l hl
        · exact q2 l hl
      · have e : u ≠ n := by rintro rfl; rw [hu] at hw; simp [Phase.isW] at hw
        rw [r6 u e]; exact hu
    · exact ih S (fun t ht => by
        have := hb t ht
        by_cases e : t = n
        · subst e; exact absurd ht hw
        · omega)

/-- C95 is violated whenever two goroutines wait for a free worker at the time the scheduler is closed: there is a way to go on in which one of them is released and
the other one waits for ever, whatever happens afterwards. Each ending worker signals, but the signals are not counted and a released caller does not pass them on. -/
theorem C95_two_waiting {c : Config} {ls : List (Label K)} {s : State K} (h : run (init c) ls = some s) (hg : Grows (init c) ls) (hc : s.closed = true) (hrw : s.rw = false)
    {t u : Nat} {x y : Job K} (ht : s.threads t = .waiting x) (hu : s.threads u = .waiting y) (hne : u ≠ t) :
    ∃ ls' s', run s ls' = some s' ∧ (∀ l ∈ ls', Spec.unaided l) ∧ ∀ ls'' s'', run s' ls'' = some s'' → s''.threads u = .waiting y := by
  have hb : ∀ t, (s.threads t).isW = true → t < c.concurrency :=
    workers_below (s := init c) (by intro t h; simp only [init] at h; split at h <;> simp_all [Phase.isW]) h
  obtain ⟨ls1, s1, r1, r2, r3, r4, r5⟩ := all_end (c := c) _ ⟨⟨ls, h, hg⟩, hc, hrw⟩ hb
  cases hs : s1.sig with
  | false =>
    exact ⟨ls1, s1, r1, r2, fun ls'' s'' h'' => dead_run ⟨r3.2.1, hs, r4⟩ h'' u y (r5 u y hu)⟩
  | true =>
    have hw : step s1 (.wake t) = some { (s1.goto t .idle) with sig := false } := by simp only [step, r5 t x ht, hs, r3.2.1, if_true]
    refine ⟨ls1 ++ [.wake t], { (s1.goto t .idle) with sig := false }, run_append r1 (by simp only [run, hw, Option.bind_some]), ?_, fun ls'' s'' h'' => dead_run (s := { (s1.goto t .idle) with sig := false }) ⟨r3.2.1, rfl, ?_⟩ h'' u y ?_⟩
    · intro l hl
      rcases List.mem_append.1 hl with hl | hl
      · exact r2 l hl
      · simp only [List.mem_singleton] at hl; subst hl; trivial
    · intro v
      show (upd s1.threads t .idle v).isW = false
      by_cases e : v = t
      · subst e; rw [upd_self]; rfl
      · rw [upd_ne _ _ e]; exact r4 v
    · show upd s1.threads t .idle u = .waiting y
      rw [upd_ne _ _ hne]; exact r5 u y hu

/-- One key at a time, one worker goroutine; goroutine 1 has a job running, 2 and 3 wait with other keys when the scheduler is closed. -/
private def demo : List (Label Nat) :=
  [.call ⟨7, 1, 0⟩, .lock 1 none, .send 1, .eval 0, .recv 0, .peek 0, .call ⟨8, 2, 1⟩, .lock 2 none, .call ⟨9, 3, 2⟩, .lock 3 none, .close]

/-- C95 is violated: one worker goroutine, limit of one key. Goroutines 2 and 3 wait for a free worker when the scheduler is closed; the worker ends and signals once, goroutine 2 returns
and goroutine 3 never does, whatever happens. -/
theorem C95_violated : ∃ (c : Config) (ls : List (Label Nat)) (s : State Nat) (x : Job Nat), 1 ≤ c.concurrency ∧ run (init c) ls = some s ∧ Grows (init c) ls ∧
    s.closed = true ∧ s.threads 0 = .wExit ∧ s.threads 2 = .idle ∧ ∀ ls' s', run s ls' = some s' → s'.threads 3 = .waiting x := by
  refine ⟨⟨1, 1, 1⟩, demo ++ [.finish 0, .complete 0, .release 0, .signal 0, .eval 0, .exit 0, .wake 2], _, ⟨9, 3, 2⟩, by decide, rfl, ?_, by rfl, by rfl, by rfl, ?_⟩
  · have : ∀ (a : List (Label Nat)) (s : State Nat), (∀ t n, Label.setMax t n ∉ a) → Grows s a := by
      intro a
      induction a with
      | nil => intro _ _; trivial
      | cons l a ih =>
        intro s hn
        exact ⟨fun t n e => absurd (by rw [e]; simp) (hn t n), fun s' _ => ih s' (fun t n hm => hn t n (List.mem_cons_of_mem _ hm))⟩
    exact this _ _ (by intro t n; simp [demo])
  · intro ls' s' h
    refine dead_run ⟨rfl, rfl, ?_⟩ h 3 _ rfl
    intro t
    by_cases h0 : t = 0
    · subst h0; rfl
    · have := workers_below (s := init (K := Nat) ⟨1, 1, 1⟩) (n := 1) (by intro t h; simp only [init] at h; split at h <;> simp_all [Phase.isW])
        (ls := demo ++ [.finish 0, .complete 0, .release 0, .signal 0, .eval 0, .exit 0, .wake 2]) rfl t
      by_contra hw
      simp only [Bool.not_eq_false] at hw
      have := this hw
      omega

/-- A single caller that waits when the scheduler is closed: the signal of the ending worker lets it go, and nothing is left to do. -/
example : ∃ s : State Nat, run (init ⟨1, 1, 1⟩) [.call ⟨7, 1, 0⟩, .lock 1 none, .send 1, .call ⟨8, 1, 1⟩, .lock 1 none, .close, .eval 0, .exit 0, .wake 1] = some s ∧
    s.closed = true ∧ s.threads 0 = .wExit ∧ s.threads 1 = .idle := ⟨_, rfl, rfl, rfl, rfl⟩

/-- Two goroutines wait when it is closed: the hypotheses of `C95_two_waiting`. -/
example : ∃ s : State Nat, run (init ⟨1, 1, 1⟩) demo = some s ∧ s.closed = true ∧ s.rw = false ∧ s.threads 2 = .waiting ⟨8, 2, 1⟩ ∧ s.threads 3 = .waiting ⟨9, 3, 2⟩ ∧
    (s.threads 0).isW = true := ⟨_, rfl, rfl, rfl, rfl, rfl, rfl⟩

end Verif.Scheduler
