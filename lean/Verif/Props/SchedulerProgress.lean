import Verif.Scheduler.Progress
import Verif.Scheduler.Bounded
import Verif.Props.Scheduler
/-
C19 once more: the exact condition under which every accepted job can still be completed.
-/
namespace Verif.Scheduler

variable {K : Type} [DecidableEq K]

/-- A step of a goroutine that is inside the scheduler already: the user neither calls it again nor closes it. -/
def Spec.unaided : Label K → Prop
  | .call _ | .setMax _ _ | .setDepth _ | .close => False
  | _ => True

/-- No queue has lost its head: a queue without head stores nothing, and no caller is blocked on it. -/
def Spec.headsKept (s : State K) : Prop :=
  ∀ k w, (k, w) ∈ s.map → (s.wk w).queue.head = none → (s.wk w).queue.buf = [] ∧ ∀ t y, s.threads t ≠ .blockAdd w y

theorem awake_run {c : Config} {ls : List (Label K)} {s : State K} (hc : 1 ≤ c.concurrency) (hg : Grows (init c) ls) (h : run (init c) ls = some s) :
    1 ≤ s.maxKeys ∧ (s.closed = true ∨ ((∃ t x, s.threads t = .waiting x) → Awake s)) := by
  have key : ∀ (ls : List (Label K)) (s0 s : State K), 1 ≤ s0.maxKeys → Grows s0 ls →
      (s0.closed = true ∨ ((∃ t x, s0.threads t = .waiting x) → Awake s0)) → run s0 ls = some s →
      1 ≤ s.maxKeys ∧ (s.closed = true ∨ ((∃ t x, s.threads t = .waiting x) → Awake s)) := by
    intro ls
    induction ls with
    | nil => intro s0 s hm _ I h; simp only [run, Option.some.injEq] at h; subst h; exact ⟨hm, I⟩
    | cons l ls ih =>
      intro s0 s hm hg I h
      simp only [run, Option.bind_eq_some_iff] at h
      obtain ⟨s1, e1, e2⟩ := h
      refine ih _ _ ?_ (hg.2 _ e1) (awake_step e1 hm I) e2
      rw [(step_limit e1).1]
      cases l with
      | setMax t n => have := hg.1 t n rfl; show 1 ≤ n; omega
      | _ => exact hm
  exact key ls _ _ (by show 1 ≤ c.concurrentKeys; unfold Config.concurrentKeys; split <;> omega) hg
    (.inr fun ⟨u, y, hu⟩ => by simp only [init] at hu; split at hu <;> simp at hu) h

/-- C19, partial: as long as no queue has lost its head and the key limit was only ever raised, every job the scheduler accepted can still be completed,
whatever the goroutines did before, and without any further call from outside. A limit change that is going on does not matter.
That these steps are taken is `C19_all_completed_partial`. Missing: the states with a lost head, where the claim is false (`C19_violated`). -/
theorem C19_completable_partial {c : Config} {ls : List (Label K)} {s : State K} (hc : 1 ≤ c.concurrency) (hg : Grows (init c) ls) (h : run (init c) ls = some s)
    (ho : s.closed = false) (hh : Spec.headsKept s) {x : Job K} (hx : x ∈ scheds s.log) :
    ∃ ls' s', run s ls' = some s' ∧ (∀ l ∈ ls', Spec.unaided l) ∧ Ev.comp x ∈ s'.log := by
  have una : ∀ (l : Label K), l.inner = true → Spec.unaided l := by intro l hl; cases l <;> simp_all [Label.inner, Spec.unaided]
  suffices H : ∃ ls' s', runI s ls' = some s' ∧ Ev.comp x ∈ s'.log by
    obtain ⟨ls', s', h1, h2⟩ := H
    exact ⟨ls', s', (runI_run h1).1, fun l hl => una l ((runI_run h1).2 l hl), h2⟩
  -- finish a limit change
  have G := good_run (good_init c) h
  have N := kept_run (good_init c) (kept_init c) hg h
  have hset : ∃ ls1 s1, runI s ls1 = some s1 ∧ Kept s1.view ∧ s1.rw = false ∧ s1.closed = s.closed ∧ s1.map = s.map ∧ s1.wk = s.wk ∧ s1.log = s.log := by
    cases hrw : s.rw with
    | false => exact ⟨[], s, rfl, N, hrw, rfl, rfl, rfl, rfl⟩
    | true =>
      obtain ⟨t, n, i, ht⟩ := N.hasxf hrw
      have ht' : s.threads t = .xfer n i := by
        have ht : (s.threads t).xf = some (n, i) := ht
        cases hp : s.threads t <;> rw [hp] at ht <;> simp [Phase.xf] at ht
        rw [ht.1, ht.2]
      obtain ⟨ls1, s1, h1, r1, r2, r3, r4, r5, r6, _⟩ := settles (n - i) G N ht' (Nat.le_refl _)
      exact ⟨ls1, s1, h1, r1, r2, r3, r4, r5, r6⟩
  obtain ⟨ls1, s1, h1, N1, hrw, hcl, hm, hw, hlog⟩ := hset
  have h01 := run_append h (runI_run h1).1
  have hgrow : Grows (init c) (ls ++ ls1) := by
    have key : ∀ (a : List (Label K)) (s0 : State K), Grows s0 a → run s0 a = some s → Grows s0 (a ++ ls1) := by
      intro a
      induction a with
      | nil =>
        intro s0 _ h0
        simp only [run, Option.some.injEq] at h0; subst h0
        have : ∀ (b : List (Label K)) (s0 : State K), (∀ l ∈ b, l.inner = true) → Grows s0 b := by
          intro b
          induction b with
          | nil => intro _ _; trivial
          | cons l b ih =>
            intro s0 hb
            refine ⟨fun t n e => ?_, fun s' _ => ih s' (fun l hl => hb l (List.mem_cons_of_mem _ hl))⟩
            have := hb l (List.mem_cons_self ..); rw [e] at this; simp [Label.inner] at this
        exact this ls1 _ (runI_run h1).2
      | cons l a ih =>
        intro s0 hg h0
        simp only [run, Option.bind_eq_some_iff] at h0
        obtain ⟨s2, e1, e2⟩ := h0
        refine ⟨hg.1, fun s' e => ?_⟩
        rw [e1] at e; simp only [Option.some.injEq] at e; subst e
        exact ih s2 (hg.2 _ e1) e2
    exact key ls _ hg h
  have G1 := good_run (good_init c) h01
  have ho1 : s1.closed = false := by rw [hcl]; exact ho
  have U : Up c.concurrency none s1 :=
    { good := G1, kept := N1, staffed := staffed_run (staffed_init c) h01, running := ho1, rw := hrw, blk := by simp }
  have F : Filled s1 := by
    intro k w hk hhd
    rw [hm] at hk; rw [hw] at hhd ⊢
    obtain ⟨hb, hnb⟩ := hh k w hk hhd
    obtain ⟨P, hP⟩ := G.1.cnt
    have hsz : (s.wk w).queue.size = (s.wk w).queue.contents.length + (P w).length := (hP w).2.2.2 ho
    have hPn : P w = [] := by
      cases hp : P w with
      | nil => rfl
      | cons t ts =>
        obtain ⟨y, hy⟩ := ((hP w).2.1 t).1 (by rw [hp]; simp)
        have hy : (s.threads t).blk = some (w, y) := hy
        exfalso; apply hnb t y
        cases ht : s.threads t <;> rw [ht] at hy <;> simp [Phase.blk] at hy
        rw [hy.1, hy.2]
    rw [hsz, hPn]; simp [Queue.contents, hhd, hb]
  obtain ⟨hmk, hAw⟩ := awake_run hc hgrow h01
  -- from a processor call to the completion
  have fin : (∃ ls s' t w, runI s1 ls = some s' ∧ Up c.concurrency none s' ∧ s'.threads t = .wProc w x) → ∃ ls' s', runI s ls' = some s' ∧ Ev.comp x ∈ s'.log := by
    rintro ⟨ls2, s2, t, w, h2, _, ht⟩
    obtain ⟨ls3, s3, h3, hcmp⟩ := completes (.inl ht)
    exact ⟨ls1 ++ (ls2 ++ ls3), s3, runI_append h1 (runI_append h2 h3), hcmp⟩
  have hx1 : x ∈ scheds s1.log := by rw [hlog]; exact hx
  rcases C17_no_loss ⟨_, h01⟩ ho1 hx1 with hst | ⟨w, hl, hmem⟩ | hph
  · -- it has started already
    obtain ⟨A, HS, _⟩ := G1.2
    have hb : Ev.start x ∈ busyLog x.key s1.log := by
      simp only [busyLog, List.mem_filter, decide_true, and_true]
      simp only [starts, List.mem_filterMap] at hst
      obtain ⟨e, he, hx⟩ := hst
      cases e <;> simp at hx
      subst hx; exact he
    have inlog : ∀ {e : Ev K}, e ∈ busyLog x.key s1.log → e ∈ s1.log := fun h => (List.mem_filter.1 h).1
    have inpairs : ∀ {a : List (Job K)}, Ev.start x ∈ pairs a → Ev.comp x ∈ pairs a := by
      intro a h
      simp only [pairs, List.mem_flatMap] at h ⊢
      obtain ⟨y, hy, h⟩ := h
      refine ⟨y, hy, ?_⟩
      simp at h; subst h; simp
    rcases HS x.key with ⟨b, _⟩ | ⟨t, w, y, hp, _, b⟩ | ⟨t, w, y, xs, hp, _, ha', b⟩
    · have b : busyLog x.key s1.log = _ := b
      exact ⟨ls1, s1, h1, inlog (by rw [b] at hb ⊢; exact inpairs hb)⟩
    · have b : busyLog x.key s1.log = _ := b
      rw [b] at hb
      rcases List.mem_append.1 hb with hb | hb
      · exact ⟨ls1, s1, h1, inlog (by rw [b]; exact List.mem_append_left _ (inpairs hb))⟩
      · simp at hb; subst hb
        have hp : (s1.threads t).proc = some (w, x) := hp
        have ht : s1.threads t = .wProc w x := by
          cases ht : s1.threads t <;> rw [ht] at hp <;> simp [Phase.proc] at hp
          rw [hp.1, hp.2]
        obtain ⟨ls3, s3, h3, hcmp⟩ := completes (.inl ht)
        exact ⟨ls1 ++ ls3, s3, runI_append h1 h3, hcmp⟩
    · have b : busyLog x.key s1.log = _ := b
      rw [b] at hb
      rcases List.mem_append.1 hb with hb | hb
      · exact ⟨ls1, s1, h1, inlog (by rw [b]; exact List.mem_append_left _ (inpairs hb))⟩
      · simp at hb; subst hb
        have hp : (s1.threads t).adv = some (w, x) := hp
        have ht : s1.threads t = .wAdv w x := by
          cases ht : s1.threads t <;> rw [ht] at hp <;> simp [Phase.adv] at hp
          rw [hp.1, hp.2]
        obtain ⟨ls3, s3, h3, hcmp⟩ := completes (.inr ht)
        exact ⟨ls1 ++ ls3, s3, runI_append h1 h3, hcmp⟩
  · -- it is stored
    have hin : (x.key, w) ∈ s1.map := lookup_some (v := s1.view) hl
    have hhd : (s1.wk w).queue.head ≠ none := by
      intro e
      rw [hm] at hin; rw [hw] at e hmem
      have := (hh _ _ hin e).1
      simp [Queue.contents, e, this] at hmem
    obtain ⟨a, b, e⟩ := List.append_of_mem hmem
    obtain ⟨ls2, s2, t, h2, U2, ht⟩ := reaches hc a U ⟨hin, rfl⟩ hhd e
    exact fin ⟨ls2, s2, t, w, h2, U2, ht⟩
  · rcases hph with hp | hp | ⟨w, hp⟩
    · exact fin (want_any hc U F hp hmk)
    · refine fin (waiting_any hc U F hp hmk ?_)
      rcases hAw with e | e
      · rw [ho1] at e; cases e
      · exact e ⟨_, _, hp⟩
    · have hin : (x.key, w) ∈ s1.map := G1.1.blkMap x.caller w x (by simp [State.view, hp, Phase.blk])
      have hhd : (s1.wk w).queue.head ≠ none := by
        intro e
        have h0 := F _ _ hin e
        obtain ⟨P, hP⟩ := G1.1.cnt
        have hsz : (s1.wk w).queue.size = (s1.wk w).queue.contents.length + (P w).length := (hP w).2.2.2 ho1
        have : x.caller ∈ P w := ((hP w).2.1 _).2 ⟨x, by simp [State.view, hp, Phase.blk]⟩
        have : 0 < (P w).length := List.length_pos_of_mem this
        omega
      obtain ⟨ls2, s2, t, h2, U2, ht⟩ := reaches_blocked hc U ⟨hin, rfl⟩ hhd hp
      exact fin ⟨ls2, s2, t, w, h2, U2, ht⟩

/-- One worker goroutine, one key allowed: key 0 has a full queue with a third caller blocked on it, the caller of key 7 waits for a free key, and the limit is
just being raised. The job of key 7 can be completed. -/
example : ∃ s : State Nat, run (init { concurrency := 1, depth := 2, maxKeys := 1 })
    [.call ⟨0, 1, 0⟩, .lock 1 none, .send 1, .call ⟨0, 1, 1⟩, .lock 1 none, .call ⟨0, 1, 2⟩, .lock 1 none, .call ⟨7, 2, 3⟩, .lock 2 none, .setMax 3 2] = some s ∧
    s.threads 1 = .blockAdd 0 ⟨0, 1, 2⟩ ∧ s.threads 2 = .waiting ⟨7, 2, 3⟩ ∧ s.rw = true ∧
    ∃ ls' s', run s ls' = some s' ∧ (∀ l ∈ ls', Spec.unaided l) ∧ Ev.comp ⟨7, 2, 3⟩ ∈ s'.log := by
  refine ⟨_, rfl, by decide, by decide, by decide, ?_⟩
  refine C19_completable_partial (c := { concurrency := 1, depth := 2, maxKeys := 1 })
    (ls := [.call ⟨0, 1, 0⟩, .lock 1 none, .send 1, .call ⟨0, 1, 1⟩, .lock 1 none, .call ⟨0, 1, 2⟩, .lock 1 none, .call ⟨7, 2, 3⟩, .lock 2 none, .setMax 3 2])
    (by decide) ?_ rfl (by decide) ?_ (by decide)
  · simp only [Grows]
    refine ⟨by simp, fun s1 e1 => ⟨by simp, fun s2 e2 => ⟨by simp, fun s3 e3 => ⟨by simp, fun s4 e4 => ⟨by simp, fun s5 e5 => ⟨by simp, fun s6 e6 => ⟨by simp, fun s7 e7 =>
      ⟨by simp, fun s8 e8 => ⟨by simp, fun s9 e9 => ⟨?_, fun _ _ => trivial⟩⟩⟩⟩⟩⟩⟩⟩⟩⟩
    intro t n e
    injection e with e1' e2'; subst e2'
    have m := (step_limit e9).1; have m8 := (step_limit e8).1; have m7 := (step_limit e7).1; have m6 := (step_limit e6).1
    have m5 := (step_limit e5).1; have m4 := (step_limit e4).1; have m3 := (step_limit e3).1; have m2 := (step_limit e2).1; have m1 := (step_limit e1).1
    simp only [newLimit] at m m8 m7 m6 m5 m4 m3 m2 m1
    rw [m, m8, m7, m6, m5, m4, m3, m2, m1]
    exact (by decide : (1 : Nat) ≤ 2)
  · intro k w hk hhd
    have hk' : (k, w) ∈ [(0, 0)] := hk
    simp at hk'
    obtain ⟨rfl, rfl⟩ := hk'
    exact absurd hhd (by decide)

/-- No queue loses its head in any state passed through. -/
def Spec.keptAlong (s : State K) (ls : List (Label K)) : Prop := ∀ p u, p <+: ls → run s p = some u → Spec.headsKept u

theorem filled_of {s : State K} (G : Good s) (ho : s.closed = false) (hh : Spec.headsKept s) : Filled s := by
  intro k w hk hhd
  obtain ⟨hb, hnb⟩ := hh k w hk hhd
  obtain ⟨P, hP⟩ := G.1.cnt
  have hsz : (s.wk w).queue.size = (s.wk w).queue.contents.length + (P w).length := (hP w).2.2.2 ho
  have hPn : P w = [] := by
    cases hp : P w with
    | nil => rfl
    | cons t ts =>
      obtain ⟨y, hy⟩ := ((hP w).2.1 t).1 (by rw [hp]; simp)
      have hy : (s.threads t).blk = some (w, y) := hy
      exfalso; apply hnb t y
      cases ht : s.threads t <;> rw [ht] at hy <;> simp [Phase.blk] at hy
      rw [hy.1, hy.2]
  rw [hsz, hPn]; simp [Queue.contents, hhd, hb]

omit [DecidableEq K] in
theorem inner_of {l : Label K} (h : Spec.unaided l) : l.inner = true := by cases l <;> simp_all [Label.inner, Spec.unaided]

theorem unaided_closed {s s' : State K} {l : Label K} (hi : l.inner = true) (h : step s l = some s') : s'.closed = s.closed := by
  cases l with
  | call x => simp [Label.inner] at hi
  | setMax t n => simp [Label.inner] at hi
  | setDepth n => simp [Label.inner] at hi
  | close => simp [Label.inner] at hi
  | lock t pick =>
    simp only [step] at h
    split at h <;> try (simp at h; done)
    unfold State.lock at h
    split at h
    · simp only [Option.some.injEq] at h; subst h; rfl
    · split at h
      · simp only [Option.some.injEq] at h; subst h; rfl
      · simp only [Option.map_eq_some_iff] at h
        obtain ⟨⟨s1, w⟩, hp, rfl⟩ := h
        show s1.closed = s.closed
        unfold State.poolGet at hp
        split at hp
        · split at hp <;> simp only [Option.some.injEq, Prod.mk.injEq, reduceCtorEq] at hp
          obtain ⟨rfl, rfl⟩ := hp; rfl
        · simp only [Option.some.injEq, Prod.mk.injEq] at hp
          obtain ⟨rfl, rfl⟩ := hp; rfl
  | put t =>
    simp only [step] at h
    split at h <;> try (simp at h; done)
    simp only [Option.map_eq_some_iff] at h
    obtain ⟨q, _, rfl⟩ := h; rfl
  | send t =>
    simp only [step] at h
    split at h <;> try (simp at h; done)
    all_goals
      unfold State.send at h
      split at h <;> simp only [Option.some.injEq, reduceCtorEq] at h
      subst h; rfl
  | recv t =>
    simp only [step] at h
    split at h <;> try (simp at h; done)
    unfold State.recv at h
    split at h
    · simp only [Option.some.injEq] at h; subst h; rfl
    · split at h <;> simp only [Option.some.injEq, reduceCtorEq] at h
      subst h; rfl
  | peek t =>
    simp only [step] at h
    split at h <;> try (simp at h; done)
    simp only [Option.some.injEq] at h; subst h
    unfold State.peekStep
    split
    · rfl
    · split <;> rfl
  | release t =>
    simp only [step] at h
    split at h <;> try (simp at h; done)
    simp only [Option.some.injEq] at h; subst h
    unfold State.release; split <;> rfl
  | xfer t =>
    simp only [step] at h
    split at h <;> try (simp at h; done)
    simp only [Option.some.injEq] at h; subst h
    unfold State.xferStep
    split
    · split <;> rfl
    · rfl
  | _ =>
    simp only [step] at h
    split at h <;> try (simp at h; done)
    first
      | (simp only [Option.some.injEq] at h; subst h; rfl)
      | (split at h <;> simp only [Option.some.injEq, reduceCtorEq] at h; subst h; rfl)

theorem grows_unaided {s : State K} {ls : List (Label K)} (h : ∀ l ∈ ls, Spec.unaided l) : Grows s ls := by
  induction ls generalizing s with
  | nil => trivial
  | cons l ls ih =>
    refine ⟨fun t n e => ?_, fun s' _ => ih (fun l hl => h l (List.mem_cons_of_mem _ hl))⟩
    have := h l (List.mem_cons_self ..); rw [e] at this; exact absurd this (by simp [Spec.unaided])

theorem grows_append {s s' : State K} {a b : List (Label K)} (h : run s a = some s') (ha : Grows s a) (hb : Grows s' b) : Grows s (a ++ b) := by
  induction a generalizing s with
  | nil => simp only [run, Option.some.injEq] at h; subst h; exact hb
  | cons l a ih =>
    simp only [run, Option.bind_eq_some_iff] at h
    obtain ⟨s1, e1, e2⟩ := h
    refine ⟨ha.1, fun s2 e => ?_⟩
    rw [e1] at e; simp only [Option.some.injEq] at e; subst e
    exact ih e2 (ha.2 _ e1)

/-- C19, partial: the goroutines inside a running scheduler cannot go on for ever on their own. From every state reached there is a bound on the number of steps they
can take without help from outside, in whatever order they are scheduled, as long as no queue loses its head (and the limit was only ever raised).
Missing: the runs with a lost head, where there is no bound (`C19_violated_spins`). -/
theorem C19_bounded_partial {c : Config} {ls : List (Label K)} {s : State K} (hg : Grows (init c) ls) (h : run (init c) ls = some s) (ho : s.closed = false) :
    ∃ n, ∀ ls' s', run s ls' = some s' → (∀ l ∈ ls', Spec.unaided l) → Spec.keptAlong s ls' → ls'.length ≤ n := by
  obtain ⟨N, o⟩ := outside_run h ⟨_, outside_init c⟩
  refine ⟨s.todo N, ?_⟩
  intro ls' s' hr hu hk
  have key : ∀ (a : List (Label K)) (s0 : State K), Good s0 → Kept s0.view → Sized s0 → Outside N s0 → s0.closed = false → run s0 a = some s' →
      (∀ l ∈ a, Spec.unaided l) → Spec.keptAlong s0 a → a.length ≤ s0.todo N := by
    intro a
    induction a with
    | nil => intro s0 _ _ _ _ _ _ _ _; exact Nat.zero_le _
    | cons l a ih =>
      intro s0 G C Z o ho h hu hk
      simp only [run, Option.bind_eq_some_iff] at h
      obtain ⟨s1, e1, e2⟩ := h
      have hi := inner_of (hu l (List.mem_cons_self ..))
      have F := filled_of G ho (hk [] s0 (List.nil_prefix) rfl)
      obtain ⟨lt, o1⟩ := todo_step G C Z F o ho hi e1
      have := ih s1 (good_next G e1) (kept_next G C e1 (fun t m e => by rw [e] at hi; simp [Label.inner] at hi)) (sized_step G Z e1) o1
        ((unaided_closed hi e1).trans ho) e2 (fun l hl => hu l (List.mem_cons_of_mem _ hl))
        (fun p u hp hr => hk (l :: p) u ((List.prefix_cons_inj l).2 hp) (by simp only [run, e1, Option.bind_some]; exact hr))
      simp only [List.length_cons]
      omega
  exact key ls' s (good_run (good_init c) h) (kept_run (good_init c) (kept_init c) hg h) (sized_run (good_init c) (sized_init c) h) o ho hr hu hk

/-- C19, partial: whichever way the goroutines are scheduled, once none of them can go on without help from outside, every job the scheduler ever accepted is completed,
provided no queue has lost its head and the limit was only ever raised. With `C19_bounded_partial` this point is always reached: no job waits for ever.
Missing: queues that lost their head, where the claim is false (`C19_violated`). -/
theorem C19_all_completed_partial {c : Config} {ls : List (Label K)} {s : State K} (hc : 1 ≤ c.concurrency) (hg : Grows (init c) ls) (h : run (init c) ls = some s)
    (ho : s.closed = false) (hh : Spec.headsKept s) (hend : ∀ l, Spec.unaided l → step s l = none) {x : Job K} (hx : x ∈ scheds s.log) : Ev.comp x ∈ s.log := by
  obtain ⟨ls', s', hr, hu, hx'⟩ := C19_completable_partial hc hg h ho hh hx
  cases ls' with
  | nil => simp only [run, Option.some.injEq] at hr; subst hr; exact hx'
  | cons l ls' =>
    exfalso
    simp only [run, Option.bind_eq_some_iff] at hr
    obtain ⟨s1, e1, _⟩ := hr
    rw [hend l (hu l (List.mem_cons_self ..))] at e1
    simp at e1

/-- C19, partial, both together: take any history of the scheduler and let the goroutines inside go on without help, one step after the other, in any order.
After finitely many steps none of them can go on, and then every accepted job is completed; unless a queue loses its head on the way. -/
theorem C19_every_schedule_partial {c : Config} {ls : List (Label K)} {s : State K} (hc : 1 ≤ c.concurrency) (hg : Grows (init c) ls) (h : run (init c) ls = some s)
    (ho : s.closed = false) (next : List (Label K) → Label K)
    (sched : Nat → List (Label K)) (h0 : sched 0 = []) (hs : ∀ i, sched (i + 1) = sched i ++ [next (sched i)])
    (hun : ∀ i, Spec.unaided (next (sched i))) (hbusy : ∀ i u, run s (sched i) = some u → (∃ l, Spec.unaided l ∧ step u l ≠ none) → step u (next (sched i)) ≠ none)
    (hkept : ∀ i, Spec.keptAlong s (sched i)) :
    ∃ i u, run s (sched i) = some u ∧ ∀ x ∈ scheds u.log, Ev.comp x ∈ u.log := by
  obtain ⟨n, hn⟩ := C19_bounded_partial hg h ho
  have len : ∀ i, (sched i).length = i := by
    intro i
    induction i with
    | zero => rw [h0]; rfl
    | succ i ih => rw [hs, List.length_append, ih]; rfl
  have una : ∀ i, ∀ l ∈ sched i, Spec.unaided l := by
    intro i
    induction i with
    | zero => rw [h0]; simp
    | succ i ih =>
      rw [hs]; intro l hl
      rcases List.mem_append.1 hl with hl | hl
      · exact ih l hl
      · simp only [List.mem_singleton] at hl; rw [hl]; exact hun i
  -- the last index that still runs
  have key : ∀ k i, (∃ u, run s (sched i) = some u) → n + 1 - i ≤ k → ∃ j u, run s (sched j) = some u ∧ ∀ l, Spec.unaided l → step u l = none := by
    intro k
    induction k with
    | zero =>
      rintro i ⟨u, hu⟩ hi
      have := hn (sched i) u hu (una i) (hkept i)
      rw [len] at this
      omega
    | succ k ih =>
      rintro i ⟨u, hu⟩ hi
      by_cases hb : ∃ l, Spec.unaided l ∧ step u l ≠ none
      · have hne := hbusy i u hu hb
        cases hst : step u (next (sched i)) with
        | none => exact absurd hst hne
        | some u' =>
          refine ih (i + 1) ⟨u', ?_⟩ ?_
          · rw [hs]; exact run_append hu (by simp only [run, hst, Option.bind_some])
          · have := hn (sched i) u hu (una i) (hkept i)
            rw [len] at this
            omega
      · refine ⟨i, u, hu, fun l hl => ?_⟩
        cases hst : step u l with
        | none => rfl
        | some u' => exact absurd ⟨l, hl, by rw [hst]; simp⟩ hb
  obtain ⟨j, u, hu, hend⟩ := key (n + 1) 0 ⟨s, by rw [h0]; rfl⟩ (by omega)
  refine ⟨j, u, hu, fun x hx => ?_⟩
  have hcl : u.closed = false := by
    have : ∀ (a : List (Label K)) (s0 : State K), (∀ l ∈ a, Spec.unaided l) → s0.closed = false → run s0 a = some u → u.closed = false := by
      intro a
      induction a with
      | nil => intro s0 _ h0 h; simp only [run, Option.some.injEq] at h; subst h; exact h0
      | cons l a ih =>
        intro s0 ha h0 h
        simp only [run, Option.bind_eq_some_iff] at h
        obtain ⟨s1, e1, e2⟩ := h
        exact ih s1 (fun l hl => ha l (List.mem_cons_of_mem _ hl)) ((unaided_closed (inner_of (ha l (List.mem_cons_self ..))) e1).trans h0) e2
    exact this _ _ (una j) ho hu
  exact C19_all_completed_partial hc (grows_append h hg (grows_unaided (una j))) (run_append h hu) hcl (hkept j _ u (List.prefix_refl _) hu) hend hx

/-- No call of `Schedule` ever finds the queue of its key full. -/
def Spec.neverFull (s : State K) (ls : List (Label K)) : Prop := ∀ p u, p <+: ls → run s p = some u → ∀ t w x, u.threads t ≠ .blockAdd w x

/-- C19, partial: heads are lost only by full queues. If no call of `Schedule` has ever found the queue of its key full, every queue has kept its head. -/
theorem C19_full_only_partial {c : Config} {ls : List (Label K)} {s : State K} (h : run (init c) ls = some s) (hf : Spec.neverFull (init c) ls) : Spec.headsKept s := by
  have key : ∀ (a : List (Label K)) (s0 : State K), Headed s0 → Spec.neverFull s0 a → run s0 a = some s → Headed s := by
    intro a
    induction a with
    | nil => intro s0 H _ h; simp only [run, Option.some.injEq] at h; subst h; exact H
    | cons l a ih =>
      intro s0 H hf h
      simp only [run, Option.bind_eq_some_iff] at h
      obtain ⟨s1, e1, e2⟩ := h
      exact ih s1 (headed_step H (hf [] s0 List.nil_prefix rfl) e1)
        (fun p u hp hr => hf (l :: p) u ((List.prefix_cons_inj l).2 hp) (by simp only [run, e1, Option.bind_some]; exact hr)) e2
  intro k w _ hh
  exact ⟨key ls _ (headed_init c) hf h w hh, fun t y => hf ls s (List.prefix_refl _) h t w y⟩

/-- C19, partial, in terms of the caller: let the goroutines inside go on without help, one step after the other, in any order. If neither before nor meanwhile a call of
`Schedule` finds the queue of its key full, then after finitely many steps every accepted job is completed.
Missing: full queues (`C19_violated`) and limits that were lowered (`C20_violated`). -/
theorem C19_never_full_partial {c : Config} {ls : List (Label K)} {s : State K} (hc : 1 ≤ c.concurrency) (hg : Grows (init c) ls) (h : run (init c) ls = some s)
    (ho : s.closed = false) (next : List (Label K) → Label K)
    (sched : Nat → List (Label K)) (h0 : sched 0 = []) (hs : ∀ i, sched (i + 1) = sched i ++ [next (sched i)])
    (hun : ∀ i, Spec.unaided (next (sched i))) (hbusy : ∀ i u, run s (sched i) = some u → (∃ l, Spec.unaided l ∧ step u l ≠ none) → step u (next (sched i)) ≠ none)
    (hfull : ∀ i, Spec.neverFull (init c) (ls ++ sched i)) :
    ∃ i u, run s (sched i) = some u ∧ ∀ x ∈ scheds u.log, Ev.comp x ∈ u.log := by
  refine C19_every_schedule_partial hc hg h ho next sched h0 hs hun hbusy (fun i p u hp hr => ?_)
  refine C19_full_only_partial (run_append h hr) (fun p' u' hp' hr' => hfull i p' u' ?_ hr')
  exact hp'.trans ((List.prefix_append_right_inj _).2 hp)

/-- C19 is violated a second time: while a queue has lost its head, the goroutine that serves it goes round for ever without any help from outside, receiving the
worker, finding nothing to do, and handing it on again. -/
theorem C19_violated_spins : ∃ (c : Config) (s : State Nat) (ls : List (Label Nat)), 1 ≤ c.concurrency ∧ Reach c s ∧ s.closed = false ∧ ls ≠ [] ∧
    (∀ l ∈ ls, Spec.unaided l) ∧ (∀ n, run s (List.replicate n ls).flatten = some s) ∧ ∃ x ∈ scheds s.log, x ∉ starts s.log := by
  have hrun : ∃ s : State Nat, run (init exConfig) (exFill ++ exWork ++ exWork ++ [.put 1]) = some s ∧ s.closed = false ∧ exJob 2 ∈ scheds s.log ∧
      (s.wk 0).queue.head = none ∧ starts s.log = [exJob 0, exJob 1] ∧ s.threads 0 = .wTop ∧ s.rw = false ∧ s.chans s.cur = [0] ∧ 0 < s.caps s.cur ∧
      0 < (s.wk 0).queue.size := by
    refine ⟨_, rfl, by decide, by decide, by decide, by decide, by decide, by decide, by decide, by decide, by decide⟩
  obtain ⟨s, h, hc, hx, hhead, hst, h0, hrw, hch, hcap, hz⟩ := hrun
  refine ⟨exConfig, s, [.eval 0, .recv 0, .peek 0, .release 0, .send 0], by decide, ⟨_, h⟩, hc, by simp, by simp [Spec.unaided], ?_, exJob 2, hx, by rw [hst]; decide⟩
  have one := goes_round hc h0 hrw hch hcap hhead hz
  intro n
  induction n with
  | zero => rfl
  | succ n ih =>
    rw [List.replicate_succ, List.flatten_cons]
    exact run_append one ih

/-- Two keys on one worker goroutine: it takes seven steps for each job and one more until nothing is left to do; no goroutine can go on then. -/
example : ∃ s : State Nat, run (init { concurrency := 1, depth := 2, maxKeys := 2 })
    [.call ⟨0, 1, 0⟩, .lock 1 none, .send 1, .call ⟨7, 2, 1⟩, .lock 2 none, .send 2,
     .eval 0, .recv 0, .peek 0, .finish 0, .complete 0, .release 0, .signal 0,
     .eval 0, .recv 0, .peek 0, .finish 0, .complete 0, .release 0, .signal 0, .eval 0] = some s ∧
    Spec.headsKept s ∧ (∀ l, Spec.unaided l → step s l = none) ∧ Ev.comp ⟨7, 2, 1⟩ ∈ s.log ∧ Ev.comp ⟨0, 1, 0⟩ ∈ s.log := by
  have hd : ∃ s : State Nat, run (init { concurrency := 1, depth := 2, maxKeys := 2 })
      [.call ⟨0, 1, 0⟩, .lock 1 none, .send 1, .call ⟨7, 2, 1⟩, .lock 2 none, .send 2,
       .eval 0, .recv 0, .peek 0, .finish 0, .complete 0, .release 0, .signal 0,
       .eval 0, .recv 0, .peek 0, .finish 0, .complete 0, .release 0, .signal 0, .eval 0] = some s ∧
      s.map = [] ∧ s.threads 0 = .wWait 0 ∧ s.threads 1 = .idle ∧ s.threads 2 = .idle ∧ s.chans 0 = [] ∧ s.cur = 0 ∧ s.closed = false ∧
      Ev.comp ⟨7, 2, 1⟩ ∈ s.log ∧ Ev.comp ⟨0, 1, 0⟩ ∈ s.log :=
    ⟨_, rfl, by decide, by decide, by decide, by decide, by decide, by decide, by decide, by decide, by decide⟩
  obtain ⟨s, h, hm, h0, h1, h2, hch, hcu, hcl, c1, c2⟩ := hd
  refine ⟨s, h, by simp [Spec.headsKept, hm], ?_, c1, c2⟩
  have th : ∀ t, s.threads t = .idle ∨ s.threads t = .wWait 0 := by
    intro t
    by_cases e0 : t = 0
    · subst e0; exact .inr h0
    by_cases e1 : t = 1
    · subst e1; exact .inl h1
    by_cases e2 : t = 2
    · subst e2; exact .inl h2
    left
    rw [run_other h]
    · simp [init, e0]
    · intro l hl
      have : l.thr = some 0 ∨ l.thr = some 1 ∨ l.thr = some 2 := by revert l; simp [Label.thr]
      rcases this with e | e | e <;> rw [e] <;> simp <;> omega
  intro l hl
  cases l with
  | lock t pick => rcases th t with e | e <;> simp [step, e]
  | recv t => rcases th t with e | e <;> simp [step, e, State.recv, hch, hcu]
  | exit t => rcases th t with e | e <;> simp [step, e, hcl]
  | call x => exact hl.elim
  | setMax t n => exact hl.elim
  | setDepth n => exact hl.elim
  | close => exact hl.elim
  | _ t => rcases th t with e | e <;> simp [step, e]

end Verif.Scheduler
