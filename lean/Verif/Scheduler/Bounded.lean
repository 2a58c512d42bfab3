import Verif.Scheduler.Progress
/-
As long as no queue loses its head, the goroutines inside a running scheduler can take only finitely many steps of their own.
-/
namespace Verif.Scheduler

set_option linter.unusedSectionVars false
set_option linter.unusedSimpArgs false
set_option linter.unusedTactic false

variable {K : Type} [DecidableEq K]

/-- Sum of `f` below `n`. -/
def sumTo (f : Nat → Nat) : Nat → Nat
  | 0 => 0
  | n + 1 => sumTo f n + f n

theorem sumTo_congr {f g : Nat → Nat} {n : Nat} (h : ∀ i, i < n → f i = g i) : sumTo f n = sumTo g n := by
  induction n with
  | zero => rfl
  | succ n ih => simp only [sumTo]; rw [ih (fun i hi => h i (by omega)), h n (by omega)]

theorem sumTo_le {f g : Nat → Nat} {n : Nat} (h : ∀ i, i < n → f i ≤ g i) : sumTo f n ≤ sumTo g n := by
  induction n with
  | zero => exact Nat.le_refl _
  | succ n ih => simp only [sumTo]; have := ih (fun i hi => h i (by omega)); have := h n (by omega); omega

theorem sumTo_one {f g : Nat → Nat} {n t : Nat} (ht : t < n) (h : ∀ i, i ≠ t → g i = f i) : sumTo g n + f t = sumTo f n + g t := by
  induction n with
  | zero => omega
  | succ n ih =>
    simp only [sumTo]
    by_cases e : t = n
    · subst e
      rw [sumTo_congr (f := g) (g := f) (n := t) (fun i hi => h i (by omega))]; omega
    · have := ih (by omega); have := h n (by omega); omega

/-- What a goroutine may still do, `C` being the newest worker channel and `cur` the current one. -/
def Phase.weight (C cur : Nat) : Phase K → Nat
  | .idle | .wExit => 0
  | .want _ => 14
  | .waiting _ => 13
  | .blockAdd _ _ => 10
  | .enq _ => 4
  | .xfer n i => n - i + 1
  | .wTop => 2 * (C - cur) + 1
  | .wWait r => 2 * (C - r)
  | .wGot _ => 2
  | .wProc _ _ => 1
  | .wAdv _ _ => 9
  | .wRel _ => 8
  | .wSig => 6
  | .wEnq _ => 7

theorem weight_idle (C cur : Nat)  : Phase.weight (K := K) C cur .idle = 0 := rfl
theorem weight_want (C cur : Nat) (x : Job K) : Phase.weight (K := K) C cur (.want x) = 14 := rfl
theorem weight_waiting (C cur : Nat) (x : Job K) : Phase.weight (K := K) C cur (.waiting x) = 13 := rfl
theorem weight_blockAdd (C cur : Nat) (x : Job K) (w : Nat) : Phase.weight (K := K) C cur (.blockAdd w x) = 10 := rfl
theorem weight_enq (C cur : Nat) (w : Nat) : Phase.weight (K := K) C cur (.enq w) = 4 := rfl
theorem weight_xfer (C cur : Nat) (n : Nat) (i : Nat) : Phase.weight (K := K) C cur (.xfer n i) = n - i + 1 := rfl
theorem weight_wTop (C cur : Nat)  : Phase.weight (K := K) C cur .wTop = 2 * (C - cur) + 1 := rfl
theorem weight_wWait (C cur : Nat) (r : Nat) : Phase.weight (K := K) C cur (.wWait r) = 2 * (C - r) := rfl
theorem weight_wGot (C cur : Nat) (w : Nat) : Phase.weight (K := K) C cur (.wGot w) = 2 := rfl
theorem weight_wProc (C cur : Nat) (x : Job K) (w : Nat) : Phase.weight (K := K) C cur (.wProc w x) = 1 := rfl
theorem weight_wAdv (C cur : Nat) (x : Job K) (w : Nat) : Phase.weight (K := K) C cur (.wAdv w x) = 9 := rfl
theorem weight_wRel (C cur : Nat) (w : Nat) : Phase.weight (K := K) C cur (.wRel w) = 8 := rfl
theorem weight_wSig (C cur : Nat)  : Phase.weight (K := K) C cur .wSig = 6 := rfl
theorem weight_wEnq (C cur : Nat) (w : Nat) : Phase.weight (K := K) C cur (.wEnq w) = 7 := rfl

/-- The newest worker channel. -/
def State.newest (s : State K) : Nat := s.cur + (if s.rw then 1 else 0)

/-- What all goroutines below `N` may still do. -/
def State.thr (s : State K) (N : Nat) : Nat := sumTo (fun t => (s.threads t).weight s.newest s.cur) N

/-- What the whole scheduler may still do: the goroutines below `N`, the workers in the channels, the stored jobs, the signal. -/
def State.todo (s : State K) (N : Nat) : Nat :=
  s.thr N + 3 * ((s.chans s.cur).length + (s.chans (s.cur + 1)).length) +
    9 * sumTo (fun w => (s.wk w).queue.contents.length) s.nw + 2 * s.sig.toNat

/-- A worker that is handed on has something to do. -/
def Sized (s : State K) : Prop :=
  (∀ r w, w ∈ s.chans r → 0 < (s.wk w).queue.size) ∧
  ∀ t w, (s.threads t = .enq w ∨ s.threads t = .wEnq w ∨ s.threads t = .wGot w) → 0 < (s.wk w).queue.size

theorem sized_init (c : Config) : Sized (init (K := K) c) := by
  refine ⟨by simp [init], ?_⟩
  intro t w h
  simp only [init] at h
  split at h <;> simp at h

/-- Only one goroutine moves, worker objects and channels stay. -/
theorem sized_goto {s s' : State K} (Z : Sized s) {t : Nat} {p : Phase K} (ht : s'.threads = upd s.threads t p) (hw : ∀ w, (s'.wk w).queue = (s.wk w).queue)
    (hc : ∀ r w, w ∈ s'.chans r → (∃ r', w ∈ s.chans r') ∨ ∃ t, s.threads t = .enq w ∨ s.threads t = .wEnq w)
    (hp : ∀ w, (p = .enq w ∨ p = .wEnq w ∨ p = .wGot w) → 0 < (s.wk w).queue.size) : Sized s' := by
  constructor
  · intro r w h
    rw [hw]
    rcases hc r w h with ⟨r', h⟩ | ⟨t, h⟩
    · exact Z.1 r' w h
    · exact Z.2 t w (by rcases h with h | h; exacts [.inl h, .inr (.inl h)])
  · intro u w h
    rw [hw]
    rw [ht] at h
    by_cases e : u = t
    · subst e; simp only [upd, if_true] at h; exact hp w h
    · simp only [upd, if_neg e] at h; exact Z.2 u w h

/-- The queue of one worker changes as well. -/
theorem sized_setQ {s s' : State K} (Z : Sized s) {t w0 : Nat} {p : Phase K} (ht : s'.threads = upd s.threads t p) (hc : s'.chans = s.chans)
    (hw : ∀ w, w ≠ w0 → (s'.wk w).queue = (s.wk w).queue) 
    (hp : ∀ w, (p = .enq w ∨ p = .wEnq w ∨ p = .wGot w) → w = w0 ∧ 0 < (s'.wk w).queue.size)
    (h0 : ((∃ r, w0 ∈ s.chans r) ∨ ∃ u, u ≠ t ∧ (s.threads u = .enq w0 ∨ s.threads u = .wEnq w0 ∨ s.threads u = .wGot w0)) → 0 < (s'.wk w0).queue.size) : Sized s' := by
  constructor
  · intro r w h
    rw [hc] at h
    by_cases e : w = w0
    · subst e; exact h0 (.inl ⟨r, h⟩)
    · rw [hw w e]; exact Z.1 r w h
  · intro u w h
    rw [ht] at h
    by_cases e : u = t
    · subst e; simp only [upd, if_true] at h; exact (hp w h).2
    · simp only [upd, if_neg e] at h
      by_cases e' : w = w0
      · subst e'; exact h0 (.inr ⟨u, e, h⟩)
      · rw [hw w e']; exact Z.2 u w h

theorem hold_of {s : State K} {t w : Nat} (h : s.threads t = .enq w ∨ s.threads t = .wEnq w ∨ s.threads t = .wGot w) : s.view.hold t = some w := by
  rcases h with h | h | h <;> simp [State.view, h, Phase.hold]

theorem sized_step {s s' : State K} {l : Label K} (G : Good s) (Z : Sized s) (h : step s l = some s') : Sized s' := by
  cases l with
  | setDepth n => simp only [step, Option.some.injEq] at h; subst h; exact Z
  | close => simp only [step, Option.some.injEq] at h; subst h; exact Z
  | call x =>
    simp only [step] at h
    split at h <;> try (simp at h; done)
    split at h <;> simp only [Option.some.injEq, reduceCtorEq] at h
    subst h
    exact sized_goto Z (t := x.caller) (p := .want x) rfl (fun _ => rfl) (fun r w h => .inl ⟨r, h⟩) (by simp)
  | lock t pick =>
    simp only [step] at h
    split at h <;> try (simp at h; done)
    rename_i x hx
    unfold State.lock at h
    split at h
    · rename_i w hl
      simp only [Option.some.injEq] at h; subst h
      have sp := tryEnqueue_spec (q := (s.wk w).queue) (x := x) (q' := ((s.wk w).queue.tryEnqueue x).1) (b := ((s.wk w).queue.tryEnqueue x).2) rfl
      have hpos : 0 < ((s.wk w).queue.tryEnqueue x).1.size := by
        have := (G.1.cnt); obtain ⟨P, hP⟩ := this
        have := (hP w).2.2.1
        have e : (s.view.wk w) = s.wk w := rfl
        rw [e] at this
        rw [sp.1]; omega
      refine sized_setQ Z (t := t) (w0 := w) (p := if ((s.wk w).queue.tryEnqueue x).2 = false then .blockAdd w x else .idle) ?_ rfl ?_ ?_ ?_
      · simp [State.add, State.goto, State.setQ]
      · intro u hu; simp [State.add, State.goto, State.setQ, upd, hu]
      · intro u hu; split at hu <;> simp at hu
      · intro _; simpa [State.add, State.goto, State.setQ, upd] using hpos
    · rename_i hl
      split at h
      · simp only [Option.some.injEq] at h; subst h
        exact sized_goto Z (t := t) (p := .waiting x) rfl (fun _ => rfl) (fun r w h => .inl ⟨r, h⟩) (by simp)
      · simp only [Option.map_eq_some_iff] at h
        obtain ⟨⟨s1, w⟩, hp, rfl⟩ := h
        have hs1 : s1.threads = s.threads ∧ s1.chans = s.chans ∧ (∀ u, u ≠ w → s1.wk u = s.wk u) ∧ (s1.wk w).queue.contents = [] ∧ (s1.wk w).queue.size = 0 := by
          unfold State.poolGet at hp
          split at hp
          · rename_i w'
            split at hp <;> simp only [Option.some.injEq, Prod.mk.injEq, reduceCtorEq] at hp
            rename_i hc
            obtain ⟨rfl, rfl⟩ := hp
            have := good_pool G.1 _ hc.1
            exact ⟨rfl, rfl, fun _ _ => rfl, this.1, this.2.1⟩
          · simp only [Option.some.injEq, Prod.mk.injEq] at hp
            obtain ⟨rfl, rfl⟩ := hp
            exact ⟨rfl, rfl, fun u hu => by simp [upd, hu], by simp [upd, newQueue, Queue.contents], by simp [upd, newQueue]⟩
        obtain ⟨e1, e2, e3, e4, e5⟩ := hs1
        have hq : ((s1.bind x.key w).wk w).queue = (s1.wk w).queue := by simp [State.bind, upd]
        have te := tryEnqueue_empty (s1.wk w).queue x e4 e5
        refine sized_setQ Z (t := t) (w0 := w) (p := .enq w) ?_ ?_ ?_ ?_ ?_
        · simp [State.add, State.goto, State.setQ, te, e1, State.bind]
        · simp [State.add, State.goto, State.setQ, State.bind, e2]
        · intro u hu; simp [State.add, State.goto, State.setQ, State.bind, upd, hu, e3 u hu]
        · intro u hu
          simp at hu; subst hu
          refine ⟨rfl, ?_⟩
          simp [State.add, State.goto, State.setQ, upd, hq, te]
        · intro _
          simp [State.add, State.goto, State.setQ, upd, hq, te]
  | wake t =>
    simp only [step] at h
    split at h <;> try (simp at h; done)
    rename_i x hx
    split at h <;> simp only [Option.some.injEq, reduceCtorEq] at h
    subst h
    exact sized_goto Z (t := t) (p := if s.closed then .idle else .want x) rfl (fun _ => rfl) (fun r w h => .inl ⟨r, h⟩) (by intro w hw; split at hw <;> simp at hw)
  | put t =>
    simp only [step] at h
    split at h <;> try (simp at h; done)
    rename_i w x hx
    simp only [Option.map_eq_some_iff] at h
    obtain ⟨q, hq, rfl⟩ := h
    have sp := put_spec hq
    refine sized_setQ Z (t := t) (w0 := w) (p := .idle) rfl rfl ?_ (by simp) ?_
    · intro u hu; simp [State.goto, State.setQ, upd, hu]
    · intro h0
      have e : (((s.setQ w q).goto t .idle).wk w).queue = q := by simp [State.goto, State.setQ, upd]
      rw [e, sp.1]
      rcases h0 with ⟨r, h⟩ | ⟨u, _, h⟩
      · exact Z.1 r w h
      · exact Z.2 u w h
  | cancel t =>
    simp only [step] at h
    split at h <;> try (simp at h; done)
    split at h <;> simp only [Option.some.injEq, reduceCtorEq] at h
    subst h
    exact sized_goto Z (t := t) (p := .idle) rfl (fun _ => rfl) (fun r w h => .inl ⟨r, h⟩) (by simp)
  | send t =>
    simp only [step] at h
    split at h <;> try (simp at h; done)
    all_goals
      rename_i w hx
      unfold State.send at h
      split at h <;> simp only [Option.some.injEq, reduceCtorEq] at h
      subst h
      refine sized_goto Z (t := t) rfl (fun _ => rfl) (fun r u h => ?_) (by simp)
      dsimp only at h
      by_cases e : r = s.cur
      · subst e
        simp only [upd, if_true, List.mem_append, List.mem_singleton] at h
        rcases h with h | rfl
        · exact .inl ⟨_, h⟩
        · exact .inr ⟨t, by simp [hx]⟩
      · simp only [upd, if_neg e] at h; exact .inl ⟨r, h⟩
  | eval t =>
    simp only [step] at h
    split at h <;> try (simp at h; done)
    simp only [Option.some.injEq] at h
    subst h
    exact sized_goto Z (t := t) (p := .wWait s.cur) rfl (fun _ => rfl) (fun r w h => .inl ⟨r, h⟩) (by simp)
  | recv t =>
    simp only [step] at h
    split at h <;> try (simp at h; done)
    rename_i r hx
    unfold State.recv at h
    split at h
    · rename_i w rest hr
      simp only [Option.some.injEq] at h; subst h
      refine sized_goto Z (t := t) (p := .wGot w) rfl (fun _ => rfl) (fun r' u h => ?_) ?_
      · dsimp only at h
        by_cases e : r' = r
        · subst e; simp only [upd, if_true] at h
          exact .inl ⟨r', by rw [hr]; exact List.mem_cons_of_mem _ h⟩
        · simp only [upd, if_neg e] at h; exact .inl ⟨r', h⟩
      · intro u hu
        simp at hu; subst hu
        exact Z.1 r _ (by rw [hr]; simp)
    · split at h <;> simp only [Option.some.injEq, reduceCtorEq] at h
      subst h
      exact sized_goto Z (t := t) (p := .wTop) rfl (fun _ => rfl) (fun r w h => .inl ⟨r, h⟩) (by simp)
  | exit t =>
    simp only [step] at h
    split at h <;> try (simp at h; done)
    split at h <;> simp only [Option.some.injEq, reduceCtorEq] at h
    subst h
    exact sized_goto Z (t := t) (p := .wExit) rfl (fun _ => rfl) (fun r w h => .inl ⟨r, h⟩) (by simp)
  | peek t =>
    simp only [step] at h
    split at h <;> try (simp at h; done)
    rename_i w hx
    simp only [Option.some.injEq] at h
    subst h
    unfold State.peekStep
    split
    · exact sized_goto Z (t := t) (p := .wRel w) rfl (fun _ => rfl) (fun r w h => .inl ⟨r, h⟩) (by simp)
    · split
      · exact sized_goto Z (t := t) (p := .wRel w) rfl (fun _ => rfl) (fun r w h => .inl ⟨r, h⟩) (by simp)
      · exact sized_goto Z (t := t) rfl (fun _ => rfl) (fun r w h => .inl ⟨r, h⟩) (by simp)
  | finish t =>
    simp only [step] at h
    split at h <;> try (simp at h; done)
    rename_i w x hx
    simp only [Option.some.injEq] at h
    subst h
    have hh : s.view.hold t = some w := by simp [State.view, hx, Phase.hold]
    refine sized_setQ Z (t := t) (w0 := w) (p := .wAdv w x) rfl rfl ?_ (by simp) ?_
    · intro u hu; simp [State.goto, State.setQ, upd, hu]
    · intro h0
      exfalso
      rcases h0 with ⟨r, h⟩ | ⟨u, hu, h⟩
      · have := G.1.tokUniq w (.ch r) (.th t) h hh; simp at this
      · exact hu (G.1.hold_inj (hold_of h) hh)
  | complete t =>
    simp only [step] at h
    split at h <;> try (simp at h; done)
    simp only [Option.some.injEq] at h
    subst h
    exact sized_goto Z (t := t) rfl (fun _ => rfl) (fun r w h => .inl ⟨r, h⟩) (by simp)
  | release t =>
    simp only [step] at h
    split at h <;> try (simp at h; done)
    rename_i w hx
    simp only [Option.some.injEq] at h
    subst h
    unfold State.release
    split
    · refine sized_goto Z (t := t) (p := .wSig) rfl (fun u => ?_) (fun r w h => .inl ⟨r, h⟩) (by simp)
      dsimp only
      by_cases e : u = w
      · subst e; simp [upd]
      · simp [upd, e]
    · rename_i hd
      refine sized_goto Z (t := t) (p := .wEnq w) rfl (fun _ => rfl) (fun r w h => .inl ⟨r, h⟩) ?_
      intro u hu
      simp at hu; subst hu
      simp only [Queue.done, decide_eq_true_eq] at hd
      omega
  | signal t =>
    simp only [step] at h
    split at h <;> try (simp at h; done)
    simp only [Option.some.injEq] at h
    subst h
    exact sized_goto Z (t := t) (p := .wTop) rfl (fun _ => rfl) (fun r w h => .inl ⟨r, h⟩) (by simp)
  | setMax t n =>
    simp only [step] at h
    split at h <;> try (simp at h; done)
    unfold State.setMax at h
    split at h
    · split at h <;> simp only [Option.some.injEq] at h <;> subst h
      · refine sized_goto Z (t := t) rfl (fun _ => rfl) (fun r u h => ?_) (by simp)
        dsimp only at h
        by_cases e : r = s.cur + 1
        · subst e; simp [upd] at h
        · simp only [upd, if_neg e] at h; exact .inl ⟨r, h⟩
      · exact Z
    · simp at h
  | xfer t =>
    simp only [step] at h
    split at h <;> try (simp at h; done)
    rename_i n i hx
    simp only [Option.some.injEq] at h
    subst h
    unfold State.xferStep
    split
    · split
      · rename_i w rest hr
        refine sized_goto Z (t := t) rfl (fun _ => rfl) (fun r u h => ?_) (by simp)
        dsimp only at h
        by_cases e : r = s.cur + 1
        · subst e
          simp only [upd, if_true, List.mem_append, List.mem_singleton] at h
          rcases h with h | rfl
          · exact .inl ⟨_, h⟩
          · exact .inl ⟨s.cur, by rw [hr]; simp⟩
        · simp only [upd, if_neg e] at h
          by_cases e' : r = s.cur
          · subst e'; simp only [if_true] at h
            exact .inl ⟨s.cur, by rw [hr]; exact List.mem_cons_of_mem _ h⟩
          · simp only [if_neg e'] at h; exact .inl ⟨r, h⟩
      · exact sized_goto Z (t := t) (p := .idle) rfl (fun _ => rfl) (fun r w h => .inl ⟨r, h⟩) (by simp)
    · exact sized_goto Z (t := t) (p := .idle) rfl (fun _ => rfl) (fun r w h => .inl ⟨r, h⟩) (by simp)

theorem sized_run {s s' : State K} {ls : List (Label K)} (G : Good s) (Z : Sized s) (h : run s ls = some s') : Sized s' := by
  induction ls generalizing s with
  | nil => simp only [run, Option.some.injEq] at h; subst h; exact Z
  | cons l ls ih =>
    simp only [run, Option.bind_eq_some_iff] at h
    obtain ⟨s1, e1, e2⟩ := h
    exact ih (good_next G e1) (sized_step G Z e1) e2

/-! ### Every step of its own brings the scheduler nearer to rest -/

/-- The goroutines from `N` on are outside the scheduler. -/
def Outside (N : Nat) (s : State K) : Prop := ∀ t, N ≤ t → s.threads t = .idle

/-- One goroutine moves; channels, worker objects and the signal are accounted for separately. -/
theorem todo_goto {s s' : State K} {N t : Nat} {p : Phase K} (ht : t < N) (e : s'.threads = upd s.threads t p) (hc : s'.cur = s.cur) (hr : s'.rw = s.rw) :
    s'.thr N + (s.threads t).weight s.newest s.cur = s.thr N + p.weight s.newest s.cur := by
  unfold State.thr
  have hn : s'.newest = s.newest := by simp [State.newest, hc, hr]
  have := sumTo_one (f := fun u => (s.threads u).weight s.newest s.cur) (g := fun u => (s'.threads u).weight s'.newest s'.cur) ht (by
    intro i hi
    rw [e, hn, hc, upd_ne _ _ hi])
  rw [this, e, hn, hc]
  simp [upd]

theorem inside {s : State K} {N t : Nat} (o : Outside N s) (h : s.threads t ≠ .idle) : t < N := by
  rcases Nat.lt_or_ge t N with h' | h'
  · exact h'
  · exact absurd (o t h') h

theorem outside_goto {s s' : State K} {N t : Nat} {p : Phase K} (o : Outside N s) (ht : t < N) (e : s'.threads = upd s.threads t p) : Outside N s' := by
  intro u hu
  rw [e, upd_ne _ _ (by omega)]
  exact o u hu

theorem nw_same {s s' : State K} {n w : Nat} (hw : w < n) (h : ∀ u, u ≠ w → (s'.wk u).queue = (s.wk u).queue) :
    sumTo (fun u => (s'.wk u).queue.contents.length) n + (s.wk w).queue.contents.length =
      sumTo (fun u => (s.wk u).queue.contents.length) n + (s'.wk w).queue.contents.length :=
  sumTo_one (f := fun u => (s.wk u).queue.contents.length) (g := fun u => (s'.wk u).queue.contents.length) hw (fun i hi => by rw [h i hi])

theorem todo_step {s s' : State K} {l : Label K} {N : Nat} (G : Good s) (C : Kept s.view) (Z : Sized s) (F : Filled s) (o : Outside N s) (hcl : s.closed = false)
    (hi : l.inner = true) (h : step s l = some s') : s'.todo N < s.todo N ∧ Outside N s' := by
  cases l with
  | setDepth n => simp [Label.inner] at hi
  | close => simp [Label.inner] at hi
  | call x => simp [Label.inner] at hi
  | setMax t n => simp [Label.inner] at hi
  | lock t pick =>
    simp only [step] at h
    split at h <;> try (simp at h; done)
    rename_i x hx
    have hN := inside o (t := t) (by simp [hx])
    unfold State.lock at h
    split at h
    · rename_i w hl
      simp only [Option.some.injEq] at h; subst h
      have hin : (x.key, w) ∈ s.map := lookup_some (v := s.view) hl
      have hlt := G.1.mapLt _ _ hin
      have hlt : w < s.nw := hlt
      have sp := tryEnqueue_spec (q := (s.wk w).queue) (x := x) (q' := ((s.wk w).queue.tryEnqueue x).1) (b := ((s.wk w).queue.tryEnqueue x).2) rfl
      have hth : (s.add t x w false).threads = upd s.threads t (if ((s.wk w).queue.tryEnqueue x).2 = false then .blockAdd w x else .idle) := by
        simp [State.add, State.goto, State.setQ]
      have a := todo_goto (s' := s.add t x w false) hN hth rfl rfl
      have b := nw_same (s := s) (s' := s.add t x w false) hlt (fun u hu => by simp [State.add, State.goto, State.setQ, upd, hu])
      have c : ((s.add t x w false).wk w).queue = ((s.wk w).queue.tryEnqueue x).1 := by simp [State.add, State.goto, State.setQ, upd]
      rw [c, sp.2.2.2.2] at b
      refine ⟨?_, outside_goto o hN hth⟩
      have e1 : (s.add t x w false).chans = s.chans := rfl
      have e2 : (s.add t x w false).cur = s.cur := rfl
      have e3 : (s.add t x w false).nw = s.nw := rfl
      have e4 : (s.add t x w false).sig = s.sig := rfl
      rw [hx] at a
      unfold State.todo
      rw [e1, e2, e3, e4]
      generalize ((s.wk w).queue.tryEnqueue x).2 = d at *
      cases d <;> simp [weight_idle, weight_want, weight_waiting, weight_blockAdd, weight_enq, weight_xfer, weight_wTop, weight_wWait, weight_wGot, weight_wProc, weight_wAdv, weight_wRel, weight_wSig, weight_wEnq] at a b <;> omega
    · rename_i hl
      split at h
      · simp only [Option.some.injEq] at h; subst h
        have a := todo_goto (s := s) (s' := s.goto t (.waiting x)) hN rfl rfl rfl
        refine ⟨?_, outside_goto o hN rfl⟩
        rw [hx] at a
        simp only [weight_idle, weight_want, weight_waiting, weight_blockAdd, weight_enq, weight_xfer, weight_wTop, weight_wWait, weight_wGot, weight_wProc, weight_wAdv, weight_wRel, weight_wSig, weight_wEnq] at a
        simp only [State.todo, State.goto] at a ⊢
        omega
      · simp only [Option.map_eq_some_iff] at h
        obtain ⟨⟨s1, w⟩, hp, rfl⟩ := h
        have hs1 : s1.threads = s.threads ∧ s1.chans = s.chans ∧ s1.cur = s.cur ∧ s1.rw = s.rw ∧ s1.sig = s.sig ∧ w < s1.nw ∧
            sumTo (fun u => (s1.wk u).queue.contents.length) s1.nw = sumTo (fun u => (s.wk u).queue.contents.length) s.nw ∧
            (s1.wk w).queue.contents = [] ∧ (s1.wk w).queue.size = 0 := by
          unfold State.poolGet at hp
          split at hp
          · rename_i w'
            split at hp <;> simp only [Option.some.injEq, Prod.mk.injEq, reduceCtorEq] at hp
            rename_i hc
            obtain ⟨rfl, rfl⟩ := hp
            have := good_pool G.1 _ hc.1
            exact ⟨rfl, rfl, rfl, rfl, rfl, G.1.poolLt _ hc.1, rfl, this.1, this.2.1⟩
          · simp only [Option.some.injEq, Prod.mk.injEq] at hp
            obtain ⟨rfl, rfl⟩ := hp
            refine ⟨rfl, rfl, rfl, rfl, rfl, Nat.lt_succ_self _, ?_, by simp [upd, newQueue, Queue.contents], by simp [upd, newQueue]⟩
            simp only [sumTo]
            rw [sumTo_congr (g := fun u => (s.wk u).queue.contents.length)]
            · simp [upd, newQueue, Queue.contents]
            · intro i hi; simp [upd, Nat.ne_of_lt hi]
        obtain ⟨e1, e2, e3, e4, e5, e6, e7, e8, e9⟩ := hs1
        have te := tryEnqueue_empty (s1.wk w).queue x e8 e9
        have hq : ((s1.bind x.key w).wk w).queue = (s1.wk w).queue := by simp [State.bind, upd]
        have hth : ((s1.bind x.key w).add t x w true).threads = upd s.threads t (.enq w) := by
          simp [State.add, State.goto, State.setQ, hq, te, e1, State.bind]
        have a := todo_goto (s := s) (s' := (s1.bind x.key w).add t x w true) hN hth e3 e4
        have b := nw_same (s := s1) (s' := (s1.bind x.key w).add t x w true) e6 (fun u hu => by
          simp [State.add, State.goto, State.setQ, State.bind, upd, hu])
        have c : (((s1.bind x.key w).add t x w true).wk w).queue.contents = [x] := by
          simp [State.add, State.goto, State.setQ, upd, hq, te, Queue.contents]
        rw [c, e8] at b
        simp only [List.length_nil, List.length_singleton, Nat.add_zero] at b
        refine ⟨?_, outside_goto o hN hth⟩
        have f1 : ((s1.bind x.key w).add t x w true).chans = s.chans := e2
        have f2 : ((s1.bind x.key w).add t x w true).cur = s.cur := e3
        have f3 : ((s1.bind x.key w).add t x w true).nw = s1.nw := rfl
        have f4 : ((s1.bind x.key w).add t x w true).sig = s.sig := e5
        rw [hx] at a
        simp only [weight_idle, weight_want, weight_waiting, weight_blockAdd, weight_enq, weight_xfer, weight_wTop, weight_wWait, weight_wGot, weight_wProc, weight_wAdv, weight_wRel, weight_wSig, weight_wEnq] at a
        unfold State.todo
        dsimp only
        rw [f1, f3, f4, b, e7, f2]
        omega
  | wake t =>
    simp only [step] at h
    split at h <;> try (simp at h; done)
    rename_i x hx
    split at h <;> simp only [Option.some.injEq, reduceCtorEq] at h
    rename_i hs
    subst h
    have hN := inside o (t := t) (by simp [hx])
    have a := todo_goto (s := s) (s' := { (s.goto t (if s.closed then .idle else .want x)) with sig := false }) hN rfl rfl rfl
    refine ⟨?_, outside_goto o hN rfl⟩
    rw [hx, hcl] at a
    simp only [weight_idle, weight_want, weight_waiting, weight_blockAdd, weight_enq, weight_xfer, weight_wTop, weight_wWait, weight_wGot, weight_wProc, weight_wAdv, weight_wRel, weight_wSig, weight_wEnq, Bool.false_eq_true, if_false] at a
    simp only [State.todo, State.goto, hs, hcl, Bool.false_eq_true, if_false, if_true, Bool.toNat_false, Bool.toNat_true] at a ⊢
    omega
  | put t =>
    simp only [step] at h
    split at h <;> try (simp at h; done)
    rename_i w x hx
    simp only [Option.map_eq_some_iff] at h
    obtain ⟨q, hq, rfl⟩ := h
    have sp := put_spec hq
    have hN := inside o (t := t) (by simp [hx])
    have hin := G.1.blkMap t w x (by simp [State.view, hx, Phase.blk])
    have hlt : w < s.nw := G.1.mapLt _ _ hin
    have a := todo_goto (s := s) (s' := (s.setQ w q).goto t .idle) hN rfl rfl rfl
    have b := nw_same (s := s) (s' := (s.setQ w q).goto t .idle) hlt (fun u hu => by simp [State.goto, State.setQ, upd, hu])
    have c : (((s.setQ w q).goto t .idle).wk w).queue = q := by simp [State.goto, State.setQ, upd]
    rw [c, sp.2.2.2, List.length_append] at b
    refine ⟨?_, outside_goto o hN rfl⟩
    rw [hx] at a
    simp only [weight_idle, weight_want, weight_waiting, weight_blockAdd, weight_enq, weight_xfer, weight_wTop, weight_wWait, weight_wGot, weight_wProc, weight_wAdv, weight_wRel, weight_wSig, weight_wEnq] at a
    simp only [State.todo, State.goto, State.setQ, List.length_singleton] at a b ⊢
    omega
  | cancel t =>
    simp only [step] at h
    split at h <;> try (simp at h; done)
    rw [hcl] at h; simp at h
  | send t =>
    simp only [step] at h
    split at h <;> try (simp at h; done)
    all_goals
      rename_i w hx
      unfold State.send at h
      split at h <;> simp only [Option.some.injEq, reduceCtorEq] at h
      rename_i hg
      subst h
      have hN := inside o (t := t) (by simp [hx])
      refine ⟨?_, outside_goto o hN rfl⟩
    · have a := todo_goto (s := s) (s' := { (s.goto t .idle) with chans := upd s.chans s.cur (s.chans s.cur ++ [w]) }) hN rfl rfl rfl
      rw [hx] at a
      simp only [weight_idle, weight_want, weight_waiting, weight_blockAdd, weight_enq, weight_xfer, weight_wTop, weight_wWait, weight_wGot, weight_wProc, weight_wAdv, weight_wRel, weight_wSig, weight_wEnq] at a
      simp only [State.todo, State.goto, upd, if_true, Nat.succ_ne_self, if_false, List.length_append, List.length_singleton] at a ⊢
      omega
    · have a := todo_goto (s := s) (s' := { (s.goto t .wTop) with chans := upd s.chans s.cur (s.chans s.cur ++ [w]) }) hN rfl rfl rfl
      rw [hx] at a
      have : s.newest = s.cur := by simp [State.newest, hg.1]
      simp only [weight_idle, weight_want, weight_waiting, weight_blockAdd, weight_enq, weight_xfer, weight_wTop, weight_wWait, weight_wGot, weight_wProc, weight_wAdv, weight_wRel, weight_wSig, weight_wEnq] at a
      simp only [State.todo, State.goto, upd, if_true, Nat.succ_ne_self, if_false, List.length_append, List.length_singleton] at a ⊢
      omega
  | eval t =>
    simp only [step] at h
    split at h <;> try (simp at h; done)
    rename_i hx
    simp only [Option.some.injEq] at h
    subst h
    have hN := inside o (t := t) (by simp [hx])
    have a := todo_goto (s := s) (s' := s.goto t (.wWait s.cur)) hN rfl rfl rfl
    refine ⟨?_, outside_goto o hN rfl⟩
    rw [hx] at a
    simp only [weight_idle, weight_want, weight_waiting, weight_blockAdd, weight_enq, weight_xfer, weight_wTop, weight_wWait, weight_wGot, weight_wProc, weight_wAdv, weight_wRel, weight_wSig, weight_wEnq] at a
    simp only [State.todo, State.goto] at a ⊢
    omega
  | recv t =>
    simp only [step] at h
    split at h <;> try (simp at h; done)
    rename_i r hx
    have hN := inside o (t := t) (by simp [hx])
    unfold State.recv at h
    split at h
    · rename_i w rest hr
      simp only [Option.some.injEq] at h; subst h
      have a := todo_goto (s := s) (s' := { (s.goto t (.wGot w)) with chans := upd s.chans r rest }) hN rfl rfl rfl
      refine ⟨?_, outside_goto o hN rfl⟩
      rw [hx] at a
      simp only [weight_idle, weight_want, weight_waiting, weight_blockAdd, weight_enq, weight_xfer, weight_wTop, weight_wWait, weight_wGot, weight_wProc, weight_wAdv, weight_wRel, weight_wSig, weight_wEnq] at a
      have hrc : r = s.cur ∨ r = s.cur + 1 := by
        rcases Nat.lt_trichotomy r s.cur with h | h | h
        · have : s.chans r = [] := C.old r h
          rw [this] at hr; simp at hr
        · exact .inl h
        · by_cases e : r = s.cur + 1
          · exact .inr e
          · have : s.chans r = [] := C.far r (show s.cur + 1 < r by omega)
            rw [this] at hr; simp at hr
      rcases hrc with rfl | rfl
      · have : (s.chans s.cur).length = rest.length + 1 := by rw [hr]; simp
        simp only [State.todo, State.goto, upd, if_true, Nat.succ_ne_self, if_false] at a ⊢
        omega
      · have : (s.chans (s.cur + 1)).length = rest.length + 1 := by rw [hr]; simp
        have hne : ¬ s.cur = s.cur + 1 := by omega
        simp only [State.todo, State.goto, upd, if_true, hne, if_false] at a ⊢
        omega
    · split at h <;> simp only [Option.some.injEq, reduceCtorEq] at h
      rename_i hlt
      subst h
      have a := todo_goto (s := s) (s' := s.goto t .wTop) hN rfl rfl rfl
      refine ⟨?_, outside_goto o hN rfl⟩
      rw [hx] at a
      have : s.cur ≤ s.newest := by simp [State.newest]
      simp only [weight_idle, weight_want, weight_waiting, weight_blockAdd, weight_enq, weight_xfer, weight_wTop, weight_wWait, weight_wGot, weight_wProc, weight_wAdv, weight_wRel, weight_wSig, weight_wEnq] at a
      simp only [State.todo, State.goto] at a ⊢
      omega
  | exit t =>
    simp only [step] at h
    split at h <;> try (simp at h; done)
    rw [hcl] at h; simp at h
  | peek t =>
    simp only [step] at h
    split at h <;> try (simp at h; done)
    rename_i w hx
    simp only [Option.some.injEq] at h
    subst h
    have hN := inside o (t := t) (by simp [hx])
    unfold State.peekStep
    rw [if_neg (by simp [hcl])]
    split
    · rename_i hp
      exfalso
      obtain ⟨k, hk⟩ := G.1.tokMap w (.th t) (show s.view.hold t = some w from by simp [State.view, hx, Phase.hold])
      have h1 := F k w hk hp
      have h2 := Z.2 t w (.inr (.inr hx))
      omega
    · rename_i x hp
      have a := todo_goto (s := s) (s' := { (s.goto t (.wProc w x)) with log := s.log ++ [.start x] }) hN rfl rfl rfl
      refine ⟨?_, outside_goto o hN rfl⟩
      rw [hx] at a
      simp only [weight_idle, weight_want, weight_waiting, weight_blockAdd, weight_enq, weight_xfer, weight_wTop, weight_wWait, weight_wGot, weight_wProc, weight_wAdv, weight_wRel, weight_wSig, weight_wEnq] at a
      simp only [State.todo, State.goto] at a ⊢
      omega
  | finish t =>
    simp only [step] at h
    split at h <;> try (simp at h; done)
    rename_i w x hx
    simp only [Option.some.injEq] at h
    subst h
    have hN := inside o (t := t) (by simp [hx])
    have hp : s.view.proc t = some (w, x) := by simp [State.view, hx, Phase.proc]
    have hin := G.1.procMap t w x hp
    have hlt : w < s.nw := G.1.mapLt _ _ hin
    have hd := dequeue_spec (G.1.procHead t w x hp)
    have hd : (s.wk w).queue.contents = x :: (s.wk w).queue.dequeue.1.contents := hd.2.2.2
    have a := todo_goto (s := s) (s' := (s.setQ w (s.wk w).queue.dequeue.1).goto t (.wAdv w x)) hN rfl rfl rfl
    have b := nw_same (s := s) (s' := (s.setQ w (s.wk w).queue.dequeue.1).goto t (.wAdv w x)) hlt (fun u hu => by simp [State.goto, State.setQ, upd, hu])
    have c : (((s.setQ w (s.wk w).queue.dequeue.1).goto t (.wAdv w x)).wk w).queue = (s.wk w).queue.dequeue.1 := by simp [State.goto, State.setQ, upd]
    rw [c] at b
    have hl : (s.wk w).queue.contents.length = (s.wk w).queue.dequeue.1.contents.length + 1 := by rw [hd]; simp
    refine ⟨?_, outside_goto o hN rfl⟩
    rw [hx] at a
    simp only [weight_idle, weight_want, weight_waiting, weight_blockAdd, weight_enq, weight_xfer, weight_wTop, weight_wWait, weight_wGot, weight_wProc, weight_wAdv, weight_wRel, weight_wSig, weight_wEnq] at a
    simp only [State.todo, State.goto, State.setQ] at a b ⊢
    omega
  | complete t =>
    simp only [step] at h
    split at h <;> try (simp at h; done)
    rename_i w x hx
    simp only [Option.some.injEq] at h
    subst h
    have hN := inside o (t := t) (by simp [hx])
    have a := todo_goto (s := s) (s' := { (s.goto t (.wRel w)) with log := s.log ++ [.comp x] }) hN rfl rfl rfl
    refine ⟨?_, outside_goto o hN rfl⟩
    rw [hx] at a
    simp only [weight_idle, weight_want, weight_waiting, weight_blockAdd, weight_enq, weight_xfer, weight_wTop, weight_wWait, weight_wGot, weight_wProc, weight_wAdv, weight_wRel, weight_wSig, weight_wEnq] at a
    simp only [State.todo, State.goto] at a ⊢
    omega
  | release t =>
    simp only [step] at h
    split at h <;> try (simp at h; done)
    rename_i w hx
    simp only [Option.some.injEq] at h
    subst h
    have hN := inside o (t := t) (by simp [hx])
    unfold State.release
    split
    · have a := todo_goto (s := s) (s' := { (s.goto t .wSig) with
          map := s.map.filter (fun p => decide (some p.1 ≠ (s.wk w).key)), wk := upd s.wk w { s.wk w with key := none }, pool := w :: s.pool }) hN rfl rfl rfl
      refine ⟨?_, outside_goto o hN rfl⟩
      rw [hx] at a
      simp only [weight_idle, weight_want, weight_waiting, weight_blockAdd, weight_enq, weight_xfer, weight_wTop, weight_wWait, weight_wGot, weight_wProc, weight_wAdv, weight_wRel, weight_wSig, weight_wEnq] at a
      have b : sumTo (fun u => ((upd s.wk w { s.wk w with key := none }) u).queue.contents.length) s.nw = sumTo (fun u => (s.wk u).queue.contents.length) s.nw := by
        refine sumTo_congr (fun i _ => ?_)
        by_cases e : i = w
        · subst e; simp [upd]
        · simp [upd, e]
      simp only [State.todo, State.goto] at a ⊢
      rw [b]
      omega
    · have a := todo_goto (s := s) (s' := s.goto t (.wEnq w)) hN rfl rfl rfl
      refine ⟨?_, outside_goto o hN rfl⟩
      rw [hx] at a
      simp only [weight_idle, weight_want, weight_waiting, weight_blockAdd, weight_enq, weight_xfer, weight_wTop, weight_wWait, weight_wGot, weight_wProc, weight_wAdv, weight_wRel, weight_wSig, weight_wEnq] at a
      simp only [State.todo, State.goto] at a ⊢
      omega
  | signal t =>
    simp only [step] at h
    split at h <;> try (simp at h; done)
    rename_i hx
    simp only [Option.some.injEq] at h
    subst h
    have hN := inside o (t := t) (by simp [hx])
    have a := todo_goto (s := s) (s' := { (s.goto t .wTop) with sig := if s.closed then s.sig else true }) hN rfl rfl rfl
    refine ⟨?_, outside_goto o hN rfl⟩
    rw [hx] at a
    have : s.newest ≤ s.cur + 1 := by unfold State.newest; split <;> omega
    simp only [weight_idle, weight_want, weight_waiting, weight_blockAdd, weight_enq, weight_xfer, weight_wTop, weight_wWait, weight_wGot, weight_wProc, weight_wAdv, weight_wRel, weight_wSig, weight_wEnq] at a
    simp only [State.todo, State.goto, hcl, Bool.false_eq_true, if_false, if_true, Bool.toNat_true] at a ⊢
    omega
  | xfer t =>
    simp only [step] at h
    split at h <;> try (simp at h; done)
    rename_i n i hx
    simp only [Option.some.injEq] at h
    subst h
    have hN := inside o (t := t) (by simp [hx])
    have hrw : s.rw = true := by
      cases e : s.rw with
      | true => rfl
      | false => have := C.noxf e t; simp [State.view, hx, Phase.xf] at this
    have pub : (s.publish t).todo N < s.todo N ∧ Outside N (s.publish t) := by
      have hn : (s.publish t).newest = s.newest := by simp [State.newest, State.publish, State.goto, hrw]
      have hcu : (s.publish t).cur = s.cur + 1 := rfl
      have a := todo_goto (s := s) (s' := s.goto t .idle) hN rfl rfl rfl
      have b : (s.publish t).thr N ≤ (s.goto t .idle).thr N := by
        unfold State.thr
        refine sumTo_le (fun u _ => ?_)
        rw [hn, hcu]
        show ((s.goto t .idle).threads u).weight s.newest (s.cur + 1) ≤ ((s.goto t .idle).threads u).weight s.newest s.cur
        cases (s.goto t .idle).threads u <;> simp only [Phase.weight] <;> omega
      refine ⟨?_, outside_goto o hN rfl⟩
      rw [hx] at a
      simp only [weight_idle, weight_want, weight_waiting, weight_blockAdd, weight_enq, weight_xfer, weight_wTop, weight_wWait, weight_wGot, weight_wProc, weight_wAdv, weight_wRel, weight_wSig, weight_wEnq] at a
      have hfar : s.chans (s.cur + 1 + 1) = [] := C.far _ (show s.cur + 1 < s.cur + 1 + 1 by omega)
      unfold State.todo
      have e1 : (s.publish t).chans = s.chans := rfl
      have e3 : (s.publish t).nw = s.nw := rfl
      have e4 : (s.publish t).sig = s.sig := rfl
      have e5 : (s.publish t).wk = s.wk := rfl
      rw [e1, e3, e4, e5, hcu, hfar]
      simp only [List.length_nil]
      omega
    unfold State.xferStep
    split
    · split
      · rename_i w rest hr
        have a := todo_goto (s := s) (s' := { (s.goto t (.xfer n (i + 1))) with
          chans := upd (upd s.chans s.cur rest) (s.cur + 1) (s.chans (s.cur + 1) ++ [w]) }) hN rfl rfl rfl
        refine ⟨?_, outside_goto o hN rfl⟩
        rw [hx] at a
        simp only [weight_idle, weight_want, weight_waiting, weight_blockAdd, weight_enq, weight_xfer, weight_wTop, weight_wWait, weight_wGot, weight_wProc, weight_wAdv, weight_wRel, weight_wSig, weight_wEnq] at a
        have : (s.chans s.cur).length = rest.length + 1 := by rw [hr]; simp
        have hne : ¬ s.cur = s.cur + 1 := by omega
        simp only [State.todo, State.goto, upd, if_true, hne, if_false, List.length_append, List.length_singleton] at a ⊢
        omega
      · exact pub
    · exact pub

/-- Only finitely many goroutines have ever been inside. -/
theorem outside_run {s s' : State K} {ls : List (Label K)} (h : run s ls = some s') (o : ∃ N, Outside N s) : ∃ N, Outside N s' := by
  induction ls generalizing s with
  | nil => simp only [run, Option.some.injEq] at h; subst h; exact o
  | cons l ls ih =>
    simp only [run, Option.bind_eq_some_iff] at h
    obtain ⟨s1, e1, e2⟩ := h
    obtain ⟨N, o⟩ := o
    refine ih e2 ⟨max N ((l.thr.getD 0) + 1), fun t ht => ?_⟩
    rw [step_other e1]
    · exact o t (by omega)
    · intro e; rw [e] at ht; simp at ht; omega

theorem outside_init (c : Config) : Outside c.concurrency (init (K := K) c) := by
  intro t ht
  simp only [init]; rw [if_neg (by omega)]

/-- A worker whose queue has lost its head goes round for ever. -/
theorem goes_round {s : State K} {t w : Nat} (hcl : s.closed = false) (ht : s.threads t = .wTop) (hrw : s.rw = false) (hch : s.chans s.cur = [w])
    (hcap : 0 < s.caps s.cur) (hh : (s.wk w).queue.head = none) (hz : 0 < (s.wk w).queue.size) :
    run s [.eval t, .recv t, .peek t, .release t, .send t] = some s := by
  have hd : (s.wk w).queue.done = false := by simp only [Queue.done, decide_eq_false_iff_not]; omega
  simp only [run, step, ht, Option.bind_some, State.goto, upd, if_true, State.recv, hch, State.peekStep, hcl, Bool.false_eq_true, if_false, Queue.peek, hh,
    State.release, hd, State.send, hrw, List.length_nil, hcap, true_and, List.nil_append]
  congr 1
  have e1 : upd (upd s.chans s.cur []) s.cur [w] = s.chans := by rw [upd_upd]; exact upd_same _ _ _ hch
  have e2 : ∀ a b c d : Phase K, upd (upd (upd (upd (upd s.threads t a) t b) t c) t d) t .wTop = s.threads := by
    intro a b c d; simp only [upd_upd]; exact upd_same _ _ _ ht
  obtain ⟨⟩ := s
  simp_all

/-! ### Without a blocked caller no queue loses its head -/

/-- A queue without head is empty. -/
def Headed (s : State K) : Prop := ∀ w, (s.wk w).queue.head = none → (s.wk w).queue.buf = []

theorem backfill_headed {T : Type} (q : Queue T) : q.backfill.head = none → q.backfill.buf = [] := by
  unfold Queue.backfill
  split
  · simp
  · rename_i h; intro _; exact h

theorem dequeue_headed {T : Type} (q : Queue T) : q.dequeue.1.head = none → q.dequeue.1.buf = [] := by
  unfold Queue.dequeue
  split
  · exact backfill_headed _
  · split
    · exact backfill_headed _
    · exact backfill_headed _

theorem headed_queues {s s' : State K} (H : Headed s) (h : ∀ w, (s'.wk w).queue = (s.wk w).queue ∨ ((s'.wk w).queue.head = none → (s'.wk w).queue.buf = [])) : Headed s' := by
  intro w hw
  rcases h w with e | e
  · rw [e] at hw ⊢; exact H w hw
  · exact e hw

theorem headed_step {s s' : State K} {l : Label K} (H : Headed s) (hb : ∀ t w x, s.threads t ≠ .blockAdd w x) (h : step s l = some s') : Headed s' := by
  cases l with
  | put t =>
    simp only [step] at h
    split at h <;> try (simp at h; done)
    rename_i w x hx
    exact absurd hx (hb t w x)
  | setDepth n => simp only [step, Option.some.injEq] at h; subst h; exact H
  | close => simp only [step, Option.some.injEq] at h; subst h; exact H
  | lock t pick =>
    simp only [step] at h
    split at h <;> try (simp at h; done)
    rename_i x hx
    have add : ∀ (s1 : State K) (w : Nat) (b : Bool), Headed s1 → Headed (s1.add t x w b) := by
      intro s1 w b H1
      refine headed_queues H1 (fun u => ?_)
      by_cases e : u = w
      · subst e
        right
        intro hh
        have sp := tryEnqueue_spec (q := (s1.wk u).queue) (x := x) (q' := ((s1.wk u).queue.tryEnqueue x).1) (b := ((s1.wk u).queue.tryEnqueue x).2) rfl
        have e : ((s1.add t x u b).wk u).queue = ((s1.wk u).queue.tryEnqueue x).1 := by simp [State.add, State.goto, State.setQ, upd]
        rw [e] at hh
        exact absurd hh sp.2.2.2.1
      · left; simp [State.add, State.goto, State.setQ, upd, e]
    unfold State.lock at h
    split at h
    · simp only [Option.some.injEq] at h; subst h
      exact add _ _ _ H
    · split at h
      · simp only [Option.some.injEq] at h; subst h; exact H
      · simp only [Option.map_eq_some_iff] at h
        obtain ⟨⟨s1, w⟩, hp, rfl⟩ := h
        refine add _ _ _ ?_
        have H1 : Headed s1 := by
          unfold State.poolGet at hp
          split at hp
          · split at hp <;> simp only [Option.some.injEq, Prod.mk.injEq, reduceCtorEq] at hp
            obtain ⟨rfl, rfl⟩ := hp; exact H
          · simp only [Option.some.injEq, Prod.mk.injEq] at hp
            obtain ⟨rfl, rfl⟩ := hp
            refine headed_queues H (fun u => ?_)
            by_cases e : u = s.nw
            · right; subst e; simp [upd, newQueue]
            · left; simp [upd, e]
        refine headed_queues H1 (fun u => .inl ?_)
        by_cases e : u = w
        · subst e; simp [State.bind, upd]
        · simp [State.bind, upd, e]
  | finish t =>
    simp only [step] at h
    split at h <;> try (simp at h; done)
    rename_i w x hx
    simp only [Option.some.injEq] at h; subst h
    refine headed_queues H (fun u => ?_)
    by_cases e : u = w
    · right; subst e; simpa [State.goto, State.setQ, upd] using dequeue_headed _
    · left; simp [State.goto, State.setQ, upd, e]
  | send t =>
    simp only [step] at h
    split at h <;> try (simp at h; done)
    all_goals
      unfold State.send at h
      split at h <;> simp only [Option.some.injEq, reduceCtorEq] at h
      subst h; exact H
  | recv t =>
    simp only [step] at h
    split at h <;> try (simp at h; done)
    unfold State.recv at h
    split at h
    · simp only [Option.some.injEq] at h; subst h; exact H
    · split at h <;> simp only [Option.some.injEq, reduceCtorEq] at h
      subst h; exact H
  | peek t =>
    simp only [step] at h
    split at h <;> try (simp at h; done)
    simp only [Option.some.injEq] at h; subst h
    unfold State.peekStep
    split
    · exact H
    · split <;> exact H
  | release t =>
    simp only [step] at h
    split at h <;> try (simp at h; done)
    rename_i w hx
    simp only [Option.some.injEq] at h; subst h
    unfold State.release
    split
    · refine headed_queues H (fun u => .inl ?_)
      by_cases e : u = w
      · subst e; simp [upd]
      · simp [upd, e]
    · exact H
  | setMax t n =>
    simp only [step] at h
    split at h <;> try (simp at h; done)
    unfold State.setMax at h
    split at h
    · split at h <;> simp only [Option.some.injEq] at h <;> subst h <;> exact H
    · simp at h
  | xfer t =>
    simp only [step] at h
    split at h <;> try (simp at h; done)
    simp only [Option.some.injEq] at h; subst h
    unfold State.xferStep
    split
    · split <;> exact H
    · exact H
  | _ =>
    simp only [step] at h
    split at h <;> try (simp at h; done)
    first
      | (simp only [Option.some.injEq] at h; subst h; exact H)
      | (split at h <;> simp only [Option.some.injEq, reduceCtorEq] at h; subst h; exact H)

theorem headed_init (c : Config) : Headed (init (K := K) c) := by intro w _; simp [init, newQueue]

end Verif.Scheduler
