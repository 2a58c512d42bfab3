import Verif.Scheduler.Wakeup
/-
From every reachable state of a running scheduler every accepted job can still be completed, unless a queue has lost its head.
-/
namespace Verif.Scheduler

set_option linter.unusedSectionVars false

variable {K : Type} [DecidableEq K]

/-- The goroutine is inside `work` and has not returned. -/
def Phase.isW : Phase K → Bool
  | .wTop | .wWait _ | .wGot _ | .wProc _ _ | .wAdv _ _ | .wRel _ | .wSig | .wEnq _ => true
  | _ => false

/-- A worker goroutine stays one until the scheduler is closed, and only waits on channels that exist. -/
def Staffed (n : Nat) (s : State K) : Prop :=
  (s.closed = false → ∀ t, t < n → (s.threads t).isW = true) ∧ ∀ t r, s.threads t = .wWait r → r ≤ s.cur

/-- What a step of goroutine `t` makes of its phase. -/
theorem goto_self (s : State K) (t : Nat) (p : Phase K) : (s.goto t p).threads t = p := upd_self _ _ _

theorem staffed_goto {n : Nat} {s s' : State K} (S : Staffed n s) {t : Nat} {p : Phase K} (hth : s'.threads = upd s.threads t p) (hcl : s'.closed = s.closed)
    (hcur : s.cur ≤ s'.cur) (hp : (s.threads t).isW = true → s.closed = false → p.isW = true) (hw : ∀ r, p = .wWait r → r ≤ s'.cur) : Staffed n s' := by
  constructor
  · intro hc t' ht'
    rw [hth]
    by_cases e : t' = t
    · subst e; rw [upd_self]; exact hp (S.1 (by rw [← hcl]; exact hc) t' ht') (by rw [← hcl]; exact hc)
    · rw [upd_ne _ _ e]; exact S.1 (by rw [← hcl]; exact hc) t' ht'
  · intro t' r hr
    rw [hth] at hr
    by_cases e : t' = t
    · subst e; rw [upd_self] at hr; exact hw r hr
    · rw [upd_ne _ _ e] at hr; have := S.2 t' r hr; omega

theorem staffed_step {n : Nat} {s s' : State K} {l : Label K} (S : Staffed n s) (h : step s l = some s') : Staffed n s' := by
  cases l with
  | setDepth n => simp only [step, Option.some.injEq] at h; subst h; exact S
  | close => simp only [step, Option.some.injEq] at h; subst h; exact ⟨by simp, S.2⟩
  | setMax t m =>
    simp only [step] at h
    split at h
    · rename_i ht
      unfold State.setMax at h
      split at h
      · split at h <;> simp only [Option.some.injEq] at h <;> subst h
        · exact staffed_goto S (t := t) (p := .xfer m 0) rfl rfl (Nat.le_refl _) (by simp [ht, Phase.isW]) (by simp)
        · exact S
      · simp at h
    · simp at h
  | call x =>
    simp only [step] at h
    split at h
    · rename_i ht
      split at h
      · simp at h
      · simp only [Option.some.injEq] at h; subst h
        exact staffed_goto S (t := x.caller) (p := .want x) rfl rfl (Nat.le_refl _) (by simp [ht, Phase.isW]) (by simp)
    · simp at h
  | lock t pick =>
    simp only [step] at h
    split at h
    · rename_i x ht
      unfold State.lock at h
      split at h
      · simp only [Option.some.injEq] at h; subst h
        exact staffed_goto S (t := t) rfl rfl (Nat.le_refl _) (by simp [ht, Phase.isW]) (by intro r; split; simp; split <;> simp)
      · split at h
        · simp only [Option.some.injEq] at h; subst h
          exact staffed_goto S (t := t) rfl rfl (Nat.le_refl _) (by simp [ht, Phase.isW]) (by simp)
        · simp only [Option.map_eq_some_iff] at h
          obtain ⟨⟨s1, w⟩, hp, rfl⟩ := h
          unfold State.poolGet at hp
          split at hp
          · split at hp
            · simp only [Option.some.injEq, Prod.mk.injEq] at hp; obtain ⟨rfl, rfl⟩ := hp
              exact staffed_goto S (t := t) rfl rfl (Nat.le_refl _) (by simp [ht, Phase.isW]) (by intro r; split; simp; split <;> simp)
            · simp at hp
          · simp only [Option.some.injEq, Prod.mk.injEq] at hp; obtain ⟨rfl, rfl⟩ := hp
            exact staffed_goto S (t := t) rfl rfl (Nat.le_refl _) (by simp [ht, Phase.isW]) (by intro r; split; simp; split <;> simp)
    · simp at h
  | wake t =>
    simp only [step] at h
    split at h
    · rename_i x ht
      split at h
      · simp only [Option.some.injEq] at h; subst h
        exact staffed_goto S (t := t) rfl rfl (Nat.le_refl _) (by simp [ht, Phase.isW]) (by intro r; split <;> simp)
      · simp at h
    · simp at h
  | exit t =>
    simp only [step] at h
    split at h
    · rename_i r ht
      split at h
      · rename_i hc
        simp only [Option.some.injEq] at h; subst h
        exact staffed_goto S (t := t) (p := .wExit) rfl rfl (Nat.le_refl _) (by intro _ h; rw [hc] at h; simp at h) (by simp)
      · simp at h
    · simp at h
  | eval t =>
    simp only [step] at h
    split at h
    · rename_i ht
      simp only [Option.some.injEq] at h; subst h
      exact staffed_goto S (t := t) rfl rfl (Nat.le_refl _) (by simp [Phase.isW]) (by intro r hr; injection hr with hr; subst hr; exact Nat.le_refl _)
    · simp at h
  | xfer t =>
    simp only [step] at h
    split at h
    · rename_i m i ht
      simp only [Option.some.injEq] at h; subst h
      unfold State.xferStep
      split
      · split
        · exact staffed_goto S (t := t) (p := .xfer m (i + 1)) rfl rfl (Nat.le_refl _) (by simp [ht, Phase.isW]) (by simp)
        · exact staffed_goto S (t := t) (p := .idle) rfl rfl (Nat.le_succ _) (by simp [ht, Phase.isW]) (by simp)
      · exact staffed_goto S (t := t) (p := .idle) rfl rfl (Nat.le_succ _) (by simp [ht, Phase.isW]) (by simp)
    · simp at h
  | send t =>
    simp only [step] at h
    split at h
    · rename_i w ht
      unfold State.send at h
      split at h
      · simp only [Option.some.injEq] at h; subst h
        exact staffed_goto S (t := t) (p := .idle) rfl rfl (Nat.le_refl _) (by simp [ht, Phase.isW]) (by simp)
      · simp at h
    · rename_i w ht
      unfold State.send at h
      split at h
      · simp only [Option.some.injEq] at h; subst h
        exact staffed_goto S (t := t) (p := .wTop) rfl rfl (Nat.le_refl _) (by simp [Phase.isW]) (by simp)
      · simp at h
    · simp at h
  | recv t =>
    simp only [step] at h
    split at h
    · unfold State.recv at h
      split at h
      · rename_i w rest hr
        simp only [Option.some.injEq] at h; subst h
        exact staffed_goto S (t := t) (p := .wGot w) rfl rfl (Nat.le_refl _) (by simp [Phase.isW]) (by simp)
      · split at h
        · simp only [Option.some.injEq] at h; subst h
          exact staffed_goto S (t := t) (p := .wTop) rfl rfl (Nat.le_refl _) (by simp [Phase.isW]) (by simp)
        · simp at h
    · simp at h
  | peek t =>
    simp only [step] at h
    split at h
    · rename_i w ht
      simp only [Option.some.injEq] at h; subst h
      unfold State.peekStep
      split
      · exact staffed_goto S (t := t) (p := .wRel w) rfl rfl (Nat.le_refl _) (by simp [Phase.isW]) (by simp)
      · split
        · exact staffed_goto S (t := t) (p := .wRel w) rfl rfl (Nat.le_refl _) (by simp [Phase.isW]) (by simp)
        · rename_i x _
          exact staffed_goto S (t := t) (p := .wProc w x) rfl rfl (Nat.le_refl _) (by simp [Phase.isW]) (by simp)
    · simp at h
  | finish t =>
    simp only [step] at h
    split at h
    · rename_i w x ht
      simp only [Option.some.injEq] at h; subst h
      exact staffed_goto S (t := t) (p := .wAdv w x) rfl rfl (Nat.le_refl _) (by simp [Phase.isW]) (by simp)
    · simp at h
  | complete t =>
    simp only [step] at h
    split at h
    · rename_i w x ht
      simp only [Option.some.injEq] at h; subst h
      exact staffed_goto S (t := t) (p := .wRel w) rfl rfl (Nat.le_refl _) (by simp [Phase.isW]) (by simp)
    · simp at h
  | release t =>
    simp only [step] at h
    split at h
    · rename_i w ht
      simp only [Option.some.injEq] at h; subst h
      unfold State.release
      split
      · exact staffed_goto S (t := t) (p := .wSig) rfl rfl (Nat.le_refl _) (by simp [Phase.isW]) (by simp)
      · exact staffed_goto S (t := t) (p := .wEnq w) rfl rfl (Nat.le_refl _) (by simp [Phase.isW]) (by simp)
    · simp at h
  | signal t =>
    simp only [step] at h
    split at h
    · simp only [Option.some.injEq] at h; subst h
      exact staffed_goto S (t := t) (p := .wTop) rfl rfl (Nat.le_refl _) (by simp [Phase.isW]) (by simp)
    · simp at h
  | put t =>
    simp only [step] at h
    split at h
    · rename_i w x ht
      simp only [Option.map_eq_some_iff] at h
      obtain ⟨q, _, rfl⟩ := h
      exact staffed_goto S (t := t) (p := .idle) rfl rfl (Nat.le_refl _) (by simp [ht, Phase.isW]) (by simp)
    · simp at h
  | cancel t =>
    simp only [step] at h
    split at h
    · rename_i w x ht
      split at h
      · simp only [Option.some.injEq] at h; subst h
        exact staffed_goto S (t := t) (p := .idle) rfl rfl (Nat.le_refl _) (by simp [ht, Phase.isW]) (by simp)
      · simp at h
    · simp at h

theorem staffed_init (c : Config) : Staffed c.concurrency (init (K := K) c) := by
  constructor
  · intro _ t ht; simp [init, ht, Phase.isW]
  · intro t r h; simp only [init] at h; split at h <;> simp at h

theorem staffed_run {n : Nat} {s s' : State K} {ls : List (Label K)} (S : Staffed n s) (h : run s ls = some s') : Staffed n s' := by
  induction ls generalizing s with
  | nil => simp only [run, Option.some.injEq] at h; subst h; exact S
  | cons l ls ih =>
    simp only [run, Option.bind_eq_some_iff] at h
    obtain ⟨s1, e1, e2⟩ := h
    exact ih (staffed_step S e1) e2

/-- A goroutine in this phase only goes on by `put` or `wake` while the scheduler runs. -/
def Phase.parked : Phase K → Bool
  | .blockAdd _ _ | .waiting _ => true
  | _ => false

/-- A step of a goroutine that is already inside the scheduler (async_scheduler.go:231-372): no new call, no limit change, no closing. -/
def Label.inner : Label K → Bool
  | .call _ | .setMax _ _ | .setDepth _ | .close => false
  | _ => true

/-- A run of such steps only. -/
def runI (s : State K) : List (Label K) → Option (State K)
  | [] => some s
  | l :: ls => if l.inner = true then (step s l).bind (fun s' => runI s' ls) else none

theorem runI_append {s s' s'' : State K} {a b : List (Label K)} (h1 : runI s a = some s') (h2 : runI s' b = some s'') : runI s (a ++ b) = some s'' := by
  induction a generalizing s with
  | nil => simp only [runI, Option.some.injEq] at h1; subst h1; exact h2
  | cons l a ih =>
    simp only [runI] at h1
    split at h1
    · rename_i hl
      simp only [Option.bind_eq_some_iff] at h1
      obtain ⟨s1, e1, e2⟩ := h1
      simp only [List.cons_append, runI, hl, if_true, e1, Option.bind_some]
      exact ih e2
    · simp at h1

theorem runI_run {s s' : State K} {ls : List (Label K)} (h : runI s ls = some s') : run s ls = some s' ∧ ∀ l ∈ ls, l.inner = true := by
  induction ls generalizing s with
  | nil => exact ⟨h, by simp⟩
  | cons l ls ih =>
    simp only [runI] at h
    split at h
    · rename_i hl
      simp only [Option.bind_eq_some_iff] at h
      obtain ⟨s1, e1, e2⟩ := h
      obtain ⟨r1, r2⟩ := ih e2
      exact ⟨by simp only [run, e1, Option.bind_some]; exact r1, by simp only [List.mem_cons, forall_eq_or_imp]; exact ⟨hl, r2⟩⟩
    · simp at h

/-- A running scheduler with all invariants, no limit change in progress. -/
structure Up (n : Nat) (B : Option (Nat × Phase K)) (s : State K) : Prop where
  good : Good s
  kept : Kept s.view
  staffed : Staffed n s
  running : s.closed = false
  rw : s.rw = false
  blk : ∀ c p, B = some (c, p) → p.parked = true ∧ s.threads c = p

/-- Worker `w` owns key `k` and has this queue. -/
structure Tgt (s : State K) (k : K) (w : Nat) (q : Queue (Job K)) : Prop where
  inmap : (k, w) ∈ s.map
  que : (s.wk w).queue = q

/-- A parked goroutine stays where it is until it puts its job or is woken, while the scheduler runs. -/
theorem park_step {s s' : State K} {l : Label K} (h : step s l = some s') (ho : s.closed = false) {c : Nat} {p : Phase K} (hp : p.parked = true)
    (hl : l ≠ .put c ∧ l ≠ .wake c) (hc : s.threads c = p) : s'.threads c = p := by
  by_cases ht : l.thr = some c
  · exfalso
    cases p <;> simp only [Phase.parked, Bool.false_eq_true] at hp <;> cases l <;>
      simp only [Label.thr, Option.some.injEq, reduceCtorEq] at ht <;> subst ht <;> simp [step, hc, ho] at h hl
  · rw [step_other h ht]; exact hc

theorem up_step {n : Nat} {B : Option (Nat × Phase K)} {s s' : State K} {l : Label K} (U : Up n B s) (h : step s l = some s') (hl : (∀ t m, l ≠ .setMax t m) ∧ ∀ c p, B = some (c, p) → l ≠ .put c ∧ l ≠ .wake c) (hc : s'.closed = false)
    (hrw : s'.rw = false) : Up n B s' where
  good := good_next U.good h
  kept := kept_next U.good U.kept h (fun t m e => absurd e (hl.1 t m))
  staffed := staffed_step U.staffed h
  running := hc
  rw := hrw
  blk := fun c p e => ⟨(U.blk c p e).1, park_step h U.running (U.blk c p e).1 (hl.2 c p e) (U.blk c p e).2⟩

theorem up_put {n : Nat} {s s' : State K} {l : Label K} (U : Up n none s) (h : step s l = some s') (hl : ∀ t m, l ≠ .setMax t m) (hc : s'.closed = false)
    (hrw : s'.rw = false) : Up n none s' where
  good := good_next U.good h
  kept := kept_next U.good U.kept h (fun t m e => absurd e (hl t m))
  staffed := staffed_step U.staffed h
  running := hc
  rw := hrw
  blk := by simp

theorem Up.free {n : Nat} {B : Option (Nat × Phase K)} {s : State K} (U : Up n B s) : Up n none s :=
  { U with blk := by simp }

theorem Up.hold {n : Nat} {s : State K} (U : Up n none s) {c : Nat} {p : Phase K} (hp : p.parked = true) (h : s.threads c = p) : Up n (some (c, p)) s :=
  { U with blk := by intro c' p' e; cases e; exact ⟨hp, h⟩ }

/-- How far a worker goroutine is from waiting on the current channel. -/
def Phase.dist (cur : Nat) : Phase K → Nat
  | .wGot _ => 7
  | .wProc _ _ => 6
  | .wAdv _ _ => 5
  | .wRel _ => 4
  | .wEnq _ => 3
  | .wSig => 3
  | .wWait r => if r = cur then 0 else 2
  | .wTop => 1
  | _ => 0

/-- A holder of a worker can always hand it over. -/
theorem send_room {n : Nat} {B : Option (Nat × Phase K)} {s : State K} (U : Up n B s) {t u : Nat} (hh : (s.threads t).hold = some u) : (s.chans s.cur).length < s.caps s.cur := by
  have G := U.good.1
  have hh' : s.view.hold t = some u := hh
  have hlen : (u :: s.chans s.cur).length ≤ s.map.length := by
    refine tokens_le (v := s.view) ?_ ?_
    · refine List.nodup_cons.2 ⟨?_, G.chanNodup s.cur⟩
      intro hw
      have := G.tokUniq u (.ch s.cur) (.th t) hw hh'
      simp at this
    · intro u' hu
      simp only [List.mem_cons] at hu
      rcases hu with rfl | hu
      · exact G.tokMap u' (.th t) hh'
      · exact G.tokMap u' (.ch s.cur) hu
  have hcap : s.caps s.cur = s.maxKeys + 1 := U.kept.caps U.rw
  have hml : s.map.length ≤ s.maxKeys := U.kept.len
  simp only [List.length_cons] at hlen
  omega

/-- One step of a worker goroutine that does not hold `w`, towards waiting on the current channel. -/
theorem toward {n : Nat} {B : Option (Nat × Phase K)} {s : State K} (U : Up n B s) {k : K} {w : Nat} {q : Queue (Job K)} (T : Tgt s k w q) {t : Nat} (hw : (s.threads t).isW = true)
    (hh : (s.threads t).hold ≠ some w) (hne : s.threads t ≠ .wWait s.cur) {a b : List Nat} (hch : s.chans s.cur = a ++ w :: b) :
    ∃ l s', (l.inner = true ∧ step s l = some s') ∧ Up n B s' ∧ Tgt s' k w q ∧ (s'.threads t).isW = true ∧ (s'.threads t).hold ≠ some w ∧
      (∃ b', s'.chans s'.cur = a ++ w :: b') ∧ (s'.threads t).dist s'.cur < (s.threads t).dist s.cur := by
  have G := U.good.1
  cases ht : s.threads t with
  | wTop =>
    have h : step s (.eval t) = some (s.goto t (.wWait s.cur)) := by simp [step, ht]
    refine ⟨_, _, ⟨rfl, h⟩, up_step U h (by simp) U.running U.rw, ⟨T.inmap, T.que⟩, ?_, ?_, ⟨b, hch⟩, ?_⟩
    · rw [goto_self]; rfl
    · rw [goto_self]; simp [Phase.hold]
    · rw [goto_self]; simp [Phase.dist, State.goto]
  | wWait r =>
    have hr := U.staffed.2 t r ht
    have hr' : r < s.cur := by
      rcases Nat.lt_or_ge r s.cur with h | h
      · exact h
      · exfalso; apply hne; rw [ht]; congr 1; omega
    have hemp : s.chans r = [] := U.kept.old r hr'
    have h : step s (.recv t) = some (s.goto t .wTop) := by simp [step, ht, State.recv, hemp, hr']
    refine ⟨_, _, ⟨rfl, h⟩, up_step U h (by simp) U.running U.rw, ⟨T.inmap, T.que⟩, ?_, ?_, ⟨b, hch⟩, ?_⟩
    · rw [goto_self]; rfl
    · rw [goto_self]; simp [Phase.hold]
    · rw [goto_self]; simp only [Phase.dist]; rw [if_neg (by omega)]; omega
  | wGot u =>
    rw [ht] at hh
    have hu : u ≠ w := by simpa [Phase.hold] using hh
    have h : step s (.peek t) = some (s.peekStep t u) := by simp [step, ht]
    cases hp : (s.wk u).queue.peek with
    | none =>
      have e : s.peekStep t u = s.goto t (.wRel u) := by simp [State.peekStep, U.running, hp]
      rw [e] at h
      refine ⟨_, _, ⟨rfl, h⟩, up_step U h (by simp) U.running U.rw, ⟨T.inmap, T.que⟩, ?_, ?_, ⟨b, hch⟩, ?_⟩
      · rw [goto_self]; rfl
      · rw [goto_self]; simpa [Phase.hold] using hu
      · rw [goto_self]; simp [Phase.dist]
    | some y =>
      have e : s.peekStep t u = { (s.goto t (.wProc u y)) with log := s.log ++ [.start y] } := by simp [State.peekStep, U.running, hp]
      rw [e] at h
      refine ⟨_, _, ⟨rfl, h⟩, up_step U h (by simp) U.running U.rw, ⟨T.inmap, T.que⟩, ?_, ?_, ⟨b, hch⟩, ?_⟩
      · simp [State.goto, Phase.isW]
      · simpa [State.goto, Phase.hold] using hu
      · simp [State.goto, Phase.dist]
  | wProc u y =>
    rw [ht] at hh
    have hu : u ≠ w := by simpa [Phase.hold] using hh
    have h : step s (.finish t) = some ((s.setQ u (s.wk u).queue.dequeue.1).goto t (.wAdv u y)) := by simp [step, ht]
    refine ⟨_, _, ⟨rfl, h⟩, up_step U h (by simp) U.running U.rw, ⟨T.inmap, ?_⟩, ?_, ?_, ⟨b, hch⟩, ?_⟩
    · simp only [State.goto, State.setQ, upd_ne _ _ (Ne.symm hu)]; exact T.que
    · rw [goto_self]; rfl
    · rw [goto_self]; simpa [Phase.hold] using hu
    · rw [goto_self]; simp [Phase.dist]
  | wAdv u y =>
    rw [ht] at hh
    have hu : u ≠ w := by simpa [Phase.hold] using hh
    have h : step s (.complete t) = some { (s.goto t (.wRel u)) with log := s.log ++ [.comp y] } := by simp [step, ht]
    refine ⟨_, _, ⟨rfl, h⟩, up_step U h (by simp) U.running U.rw, ⟨T.inmap, T.que⟩, ?_, ?_, ⟨b, hch⟩, ?_⟩
    · simp [State.goto, Phase.isW]
    · simpa [State.goto, Phase.hold] using hu
    · simp [State.goto, Phase.dist]
  | wRel u =>
    rw [ht] at hh
    have hu : u ≠ w := by simpa [Phase.hold] using hh
    have h : step s (.release t) = some (s.release t u) := by simp [step, ht]
    by_cases hd : (s.wk u).queue.done = true
    · rw [show s.release t u = _ from if_pos hd] at h
      obtain ⟨k', hk'⟩ := G.tokMap u (.th t) (by simp [View.tok, State.view, ht, Phase.hold])
      have hk'' : (k', u) ∈ s.map := hk'
      have hkey : (s.wk u).key = some k' := G.mapKey _ _ hk'
      have hkk : k ≠ k' := by rintro rfl; exact hu (nodup_fst_inj G.keysNodup hk'' T.inmap)
      refine ⟨_, _, ⟨rfl, h⟩, up_step U h (by simp) U.running U.rw, ⟨?_, ?_⟩, ?_, ?_, ⟨b, hch⟩, ?_⟩
      · simp [T.inmap, hkey, hkk]
      · simp only [upd_ne _ _ (Ne.symm hu)]; exact T.que
      · simp [State.goto, Phase.isW]
      · simp [State.goto, Phase.hold]
      · simp [State.goto, Phase.dist]
    · rw [show s.release t u = _ from if_neg hd] at h
      refine ⟨_, _, ⟨rfl, h⟩, up_step U h (by simp) U.running U.rw, ⟨T.inmap, T.que⟩, ?_, ?_, ⟨b, hch⟩, ?_⟩
      · rw [goto_self]; rfl
      · rw [goto_self]; simpa [Phase.hold] using hu
      · rw [goto_self]; simp [Phase.dist]
  | wSig =>
    have h : step s (.signal t) = some { (s.goto t .wTop) with sig := if s.closed then s.sig else true } := by simp [step, ht]
    refine ⟨_, _, ⟨rfl, h⟩, up_step U h (by simp) U.running U.rw, ⟨T.inmap, T.que⟩, ?_, ?_, ⟨b, hch⟩, ?_⟩
    · simp [State.goto, Phase.isW]
    · simp [State.goto, Phase.hold]
    · simp [State.goto, Phase.dist]
  | wEnq u =>
    rw [ht] at hh
    have hroom := send_room U (t := t) (u := u) (by rw [ht]; rfl)
    have h : step s (.send t) = some { (s.goto t .wTop) with chans := upd s.chans s.cur (s.chans s.cur ++ [u]) } := by
      simp only [step, ht, State.send]; rw [if_pos ⟨U.rw, hroom⟩]
    refine ⟨_, _, ⟨rfl, h⟩, up_step U h (by simp) U.running U.rw, ⟨T.inmap, T.que⟩, ?_, ?_, ⟨b ++ [u], ?_⟩, ?_⟩
    · simp [State.goto, Phase.isW]
    · simp [State.goto, Phase.hold]
    · simp only [State.goto, upd_self, hch]; simp
    · simp [State.goto, Phase.dist]
  | _ => rw [ht] at hw; simp [Phase.isW] at hw

/-- Several steps: the goroutine gets to wait on the current channel. -/
theorem toWait {n : Nat} {B : Option (Nat × Phase K)} : ∀ (d : Nat) {s : State K} (_ : Up n B s) {k : K} {w : Nat} {q : Queue (Job K)} (_ : Tgt s k w q) {t : Nat} (_ : (s.threads t).isW = true)
    (_ : (s.threads t).hold ≠ some w) {a b : List Nat} (_ : s.chans s.cur = a ++ w :: b) (_ : (s.threads t).dist s.cur ≤ d),
    ∃ ls s', runI s ls = some s' ∧ Up n B s' ∧ Tgt s' k w q ∧ s'.threads t = .wWait s'.cur ∧ (∃ b', s'.chans s'.cur = a ++ w :: b') := by
  intro d
  induction d with
  | zero =>
    intro s U k w q T t hw hh a b hch hd
    by_cases hne : s.threads t = .wWait s.cur
    · exact ⟨[], s, rfl, U, T, hne, b, hch⟩
    · obtain ⟨_, _, _, _, _, _, _, _, h⟩ := toward U T hw hh hne hch
      omega
  | succ d ih =>
    intro s U k w q T t hw hh a b hch hd
    by_cases hne : s.threads t = .wWait s.cur
    · exact ⟨[], s, rfl, U, T, hne, b, hch⟩
    · obtain ⟨l, s1, ⟨hin, h⟩, U1, T1, w1, h1, ⟨b1, c1⟩, hd1⟩ := toward U T hw hh hne hch
      obtain ⟨ls, s', hr, hrest⟩ := ih U1 T1 w1 h1 c1 (by omega)
      exact ⟨l :: ls, s', by simp [runI, hin, h, hr], hrest⟩

/-- A worker in the current channel is received by goroutine `t`, after those before it. -/
theorem drain {n : Nat} {B : Option (Nat × Phase K)} {k : K} {w : Nat} {q : Queue (Job K)} {t : Nat} : ∀ (a : List Nat) {s : State K} (_ : Up n B s) (_ : Tgt s k w q)
    (_ : (s.threads t).isW = true) {b : List Nat} (_ : s.chans s.cur = a ++ w :: b),
    ∃ ls s', runI s ls = some s' ∧ Up n B s' ∧ Tgt s' k w q ∧ s'.threads t = .wGot w := by
  intro a
  induction a with
  | nil =>
    intro s U T hw b hch
    have hh : (s.threads t).hold ≠ some w := by
      intro h
      have hx : s.view.tok w (.th t) := h
      have hy : s.view.tok w (.ch s.cur) := by show w ∈ s.chans s.cur; rw [hch]; simp
      have := U.good.1.tokUniq w _ _ hx hy; cases this
    obtain ⟨ls, s1, h1, U1, T1, w1, b1, c1⟩ := toWait _ U T hw hh hch (Nat.le_refl _)
    have h : step s1 (.recv t) = some { (s1.goto t (.wGot w)) with chans := upd s1.chans s1.cur b1 } := by
      simp [step, w1, State.recv, c1]
    refine ⟨ls ++ [.recv t], _, runI_append h1 (by simp [runI, Label.inner, h]), up_step U1 h (by simp) U1.running U1.rw, ⟨T1.inmap, T1.que⟩, ?_⟩
    simp [State.goto]
  | cons u a ih =>
    intro s U T hw b hch
    have hh : (s.threads t).hold ≠ some w := by
      intro h
      have hx : s.view.tok w (.th t) := h
      have hy : s.view.tok w (.ch s.cur) := by show w ∈ s.chans s.cur; rw [hch]; simp
      have := U.good.1.tokUniq w _ _ hx hy; cases this
    obtain ⟨ls, s1, h1, U1, T1, w1, b1, c1⟩ := toWait _ U T hw hh hch (Nat.le_refl _)
    have h : step s1 (.recv t) = some { (s1.goto t (.wGot u)) with chans := upd s1.chans s1.cur (a ++ w :: b1) } := by
      simp [step, w1, State.recv, c1]
    obtain ⟨ls2, s2, h2, rest⟩ := ih (s := { (s1.goto t (.wGot u)) with chans := upd s1.chans s1.cur (a ++ w :: b1) })
      (up_step U1 h (by simp) U1.running U1.rw) ⟨T1.inmap, T1.que⟩ (by simp [State.goto, Phase.isW]) (b := b1) (by simp [State.goto])
    exact ⟨ls ++ .recv t :: ls2, s2, runI_append h1 (by simp only [runI, Label.inner, if_true, h, Option.bind_some]; exact h2), rest⟩

/-- A goroutine with a worker that has more to do puts it back into the channel. -/
theorem putBack {n : Nat} {B : Option (Nat × Phase K)} {s : State K} (U : Up n B s) {k : K} {w : Nat} {q : Queue (Job K)} (T : Tgt s k w q) (hq : q.contents ≠ []) {t : Nat}
    (ht : s.threads t = .enq w ∨ s.threads t = .wEnq w ∨ s.threads t = .wRel w ∨ ∃ y, s.threads t = .wAdv w y) :
    ∃ ls s', runI s ls = some s' ∧ Up n B s' ∧ Tgt s' k w q ∧ ∃ a b, s'.chans s'.cur = a ++ w :: b := by
  have send : ∀ {s : State K} (_ : Up n B s) (_ : Tgt s k w q) (_ : s.threads t = .enq w ∨ s.threads t = .wEnq w),
      ∃ ls s', runI s ls = some s' ∧ Up n B s' ∧ Tgt s' k w q ∧ ∃ a b, s'.chans s'.cur = a ++ w :: b := by
    intro s U T ht
    have hroom := send_room U (t := t) (u := w) (by rcases ht with e | e <;> rw [e] <;> rfl)
    have h : ∃ p, step s (.send t) = some { (s.goto t p) with chans := upd s.chans s.cur (s.chans s.cur ++ [w]) } := by
      rcases ht with e | e
      · exact ⟨.idle, by simp only [step, e, State.send]; rw [if_pos ⟨U.rw, hroom⟩]⟩
      · exact ⟨.wTop, by simp only [step, e, State.send]; rw [if_pos ⟨U.rw, hroom⟩]⟩
    obtain ⟨p, h⟩ := h
    exact ⟨[.send t], _, by simp [runI, Label.inner, h], up_step U h (by simp) U.running U.rw, ⟨T.inmap, T.que⟩, s.chans s.cur, [], by simp [State.goto]⟩
  have rel : ∀ {s : State K} (_ : Up n B s) (_ : Tgt s k w q) (_ : s.threads t = .wRel w),
      ∃ ls s', runI s ls = some s' ∧ Up n B s' ∧ Tgt s' k w q ∧ ∃ a b, s'.chans s'.cur = a ++ w :: b := by
    intro s U T ht
    have hd : (s.wk w).queue.done ≠ true := by
      obtain ⟨P, hP⟩ := U.good.1.cnt
      have hsz : (s.wk w).queue.size ≥ (s.wk w).queue.contents.length + (P w).length := (hP w).2.2.1
      have hpos : 0 < (s.wk w).queue.contents.length := by rw [T.que]; exact List.length_pos_iff.mpr hq
      simp [Queue.done]; omega
    have h : step s (.release t) = some (s.goto t (.wEnq w)) := by
      have : s.release t w = s.goto t (.wEnq w) := if_neg hd
      simp [step, ht, this]
    obtain ⟨ls, s', h1, rest⟩ := send (s := s.goto t (.wEnq w)) (up_step U h (by simp) U.running U.rw) ⟨T.inmap, T.que⟩ (Or.inr (goto_self _ _ _))
    exact ⟨.release t :: ls, s', by simp only [runI, Label.inner, if_true, h, Option.bind_some]; exact h1, rest⟩
  rcases ht with ht | ht | ht | ⟨y, ht⟩
  · exact send U T (Or.inl ht)
  · exact send U T (Or.inr ht)
  · exact rel U T ht
  · have h : step s (.complete t) = some { (s.goto t (.wRel w)) with log := s.log ++ [.comp y] } := by simp [step, ht]
    obtain ⟨ls, s', h1, rest⟩ := rel (s := { (s.goto t (.wRel w)) with log := s.log ++ [.comp y] }) (up_step U h (by simp) U.running U.rw) ⟨T.inmap, T.que⟩ (goto_self _ _ _)
    exact ⟨.complete t :: ls, s', by simp only [runI, Label.inner, if_true, h, Option.bind_some]; exact h1, rest⟩

/-- From a goroutine that received the worker to the processor call. -/
theorem pick {n : Nat} {B : Option (Nat × Phase K)} {s : State K} (U : Up n B s) {k : K} {w : Nat} {q : Queue (Job K)} (T : Tgt s k w q) {y : Job K} (hy : q.head = some y) {t : Nat}
    (ht : s.threads t = .wGot w) : ∃ ls s', runI s ls = some s' ∧ Up n B s' ∧ Tgt s' k w q ∧ s'.threads t = .wProc w y := by
  have hp : (s.wk w).queue.peek = some y := by rw [T.que]; exact hy
  have e : s.peekStep t w = { (s.goto t (.wProc w y)) with log := s.log ++ [.start y] } := by simp [State.peekStep, U.running, hp]
  have h : step s (.peek t) = some { (s.goto t (.wProc w y)) with log := s.log ++ [.start y] } := by simp [step, ht, e]
  exact ⟨[.peek t], _, by simp [runI, Label.inner, h], up_step U h (by simp) U.running U.rw, ⟨T.inmap, T.que⟩, goto_self _ _ _⟩

/-- A worker whose queue has a head gets to process it. -/
theorem locate {n : Nat} {B : Option (Nat × Phase K)} (hn : 1 ≤ n) {s : State K} (U : Up n B s) {k : K} {w : Nat} {q : Queue (Job K)} (T : Tgt s k w q) {y : Job K} (hy : q.head = some y) :
    ∃ ls s' t, runI s ls = some s' ∧ Up n B s' ∧ Tgt s' k w q ∧ s'.threads t = .wProc w y := by
  have hq : q.contents ≠ [] := by simp [Queue.contents, hy]
  have fromChan : ∀ {s : State K} (_ : Up n B s) (_ : Tgt s k w q) (_ : ∃ a b, s.chans s.cur = a ++ w :: b),
      ∃ ls s' t, runI s ls = some s' ∧ Up n B s' ∧ Tgt s' k w q ∧ s'.threads t = .wProc w y := by
    intro s U T h
    obtain ⟨a, b, hch⟩ := h
    obtain ⟨ls, s1, h1, U1, T1, g1⟩ := drain (t := 0) a U T (U.staffed.1 U.running 0 (by omega)) hch
    obtain ⟨ls2, s2, h2, U2, T2, g2⟩ := pick U1 T1 hy g1
    exact ⟨ls ++ ls2, s2, 0, runI_append h1 h2, U2, T2, g2⟩
  rcases U.kept.somewhere k w T.inmap with ⟨t, ht⟩ | h | ⟨h, _⟩
  · have ht : (s.threads t).hold = some w := ht
    have viaPut : (s.threads t = .enq w ∨ s.threads t = .wEnq w ∨ s.threads t = .wRel w ∨ ∃ y, s.threads t = .wAdv w y) →
        ∃ ls s' t, runI s ls = some s' ∧ Up n B s' ∧ Tgt s' k w q ∧ s'.threads t = .wProc w y := by
      intro hc
      obtain ⟨ls, s1, h1, U1, T1, c1⟩ := putBack U T hq hc
      obtain ⟨ls2, s2, t2, h2, rest⟩ := fromChan U1 T1 c1
      exact ⟨ls ++ ls2, s2, t2, runI_append h1 h2, rest⟩
    cases hp : s.threads t with
    | enq u => rw [hp] at ht; simp only [Phase.hold, Option.some.injEq] at ht; subst ht; exact viaPut (Or.inl hp)
    | wEnq u => rw [hp] at ht; simp only [Phase.hold, Option.some.injEq] at ht; subst ht; exact viaPut (Or.inr (Or.inl hp))
    | wRel u => rw [hp] at ht; simp only [Phase.hold, Option.some.injEq] at ht; subst ht; exact viaPut (Or.inr (Or.inr (Or.inl hp)))
    | wAdv u z => rw [hp] at ht; simp only [Phase.hold, Option.some.injEq] at ht; subst ht; exact viaPut (Or.inr (Or.inr (Or.inr ⟨z, hp⟩)))
    | wGot u =>
      rw [hp] at ht; simp only [Phase.hold, Option.some.injEq] at ht; subst ht
      obtain ⟨ls2, s2, h2, U2, T2, g2⟩ := pick U T hy hp
      exact ⟨ls2, s2, t, h2, U2, T2, g2⟩
    | wProc u z =>
      rw [hp] at ht; simp only [Phase.hold, Option.some.injEq] at ht; subst ht
      have hz := U.good.1.procHead t u z (by simp [State.view, hp, Phase.proc])
      have hz' : (s.wk u).queue.head = some z := hz
      rw [T.que, hy] at hz'
      simp only [Option.some.injEq] at hz'; subst hz'
      exact ⟨[], s, t, rfl, U, T, hp⟩
    | _ => rw [hp] at ht; simp [Phase.hold] at ht
  · exact fromChan U T (by
      have h : w ∈ s.chans s.cur := h
      exact List.append_of_mem h)
  · rw [show s.view.rw = s.rw from rfl, U.rw] at h; cases h

theorem dequeue_head {T : Type} {q : Queue T} {y : T} (hy : q.head = some y) (hc : q.dequeue.1.contents ≠ []) : q.dequeue.1.head ≠ none := by
  unfold Queue.dequeue at *
  simp only [hy, Queue.take, Queue.backfill, Queue.contents] at *
  cases hb : q.buf with
  | nil => rw [hb] at hc; simp at hc
  | cons a b => simp

/-- From the processor call for the head to that for the next one in the queue. -/
theorem advance {n : Nat} {B : Option (Nat × Phase K)} {s : State K} (U : Up n B s) {k : K} {w : Nat} {q : Queue (Job K)} (T : Tgt s k w q) {y : Job K} {t : Nat}
    (ht : s.threads t = .wProc w y) : ∃ s1, runI s [.finish t] = some s1 ∧ Up n B s1 ∧ Tgt s1 k w q.dequeue.1 ∧ s1.threads t = .wAdv w y := by
  have h : step s (.finish t) = some ((s.setQ w (s.wk w).queue.dequeue.1).goto t (.wAdv w y)) := by simp [step, ht]
  refine ⟨_, by simp [runI, Label.inner, h], up_step U h (by simp) U.running U.rw, ⟨T.inmap, ?_⟩, goto_self _ _ _⟩
  simp [State.goto, State.setQ, T.que]

/-- A stored job in a queue with a head is processed after those before it. -/
theorem reaches {n : Nat} {B : Option (Nat × Phase K)} (hn : 1 ≤ n) {k : K} {w : Nat} {x : Job K} {post : List (Job K)} : ∀ (pre : List (Job K)) {s : State K} (_ : Up n B s) {q : Queue (Job K)} (_ : Tgt s k w q)
    (_ : q.head ≠ none) (_ : q.contents = pre ++ x :: post), ∃ ls s' t, runI s ls = some s' ∧ Up n B s' ∧ s'.threads t = .wProc w x := by
  intro pre
  induction pre with
  | nil =>
    intro s U q T hh hc
    obtain ⟨y, hy⟩ := Option.ne_none_iff_exists'.mp hh
    obtain ⟨ls, s1, t, h1, U1, T1, g1⟩ := locate hn U T hy
    have : y = x := by simp [Queue.contents, hy] at hc; exact hc.1
    subst this
    exact ⟨ls, s1, t, h1, U1, g1⟩
  | cons z pre ih =>
    intro s U q T hh hc
    obtain ⟨y, hy⟩ := Option.ne_none_iff_exists'.mp hh
    obtain ⟨ls, s1, t, h1, U1, T1, g1⟩ := locate hn U T hy
    obtain ⟨s2, h2, U2, T2, _⟩ := advance U1 T1 g1
    have hd := (dequeue_spec hy).2.2.2
    rw [hc] at hd
    have hd' : q.dequeue.1.contents = pre ++ x :: post := (List.cons.inj hd).2.symm
    obtain ⟨ls3, s3, t3, h3, rest⟩ := ih U2 T2 (dequeue_head hy (by rw [hd']; simp)) hd'
    exact ⟨ls ++ ([.finish t] ++ ls3), s3, t3, runI_append h1 (runI_append h2 h3), rest⟩

/-- A caller blocked on a full queue with a head gets its job in, and it is processed. -/
theorem reaches_blocked {n : Nat} (hn : 1 ≤ n) {k : K} {w : Nat} {x : Job K} {s : State K} (U : Up n none s) {q : Queue (Job K)} (T : Tgt s k w q) (hh : q.head ≠ none) {c : Nat}
    (hb : s.threads c = .blockAdd w x) : ∃ ls s' t, runI s ls = some s' ∧ Up n none s' ∧ s'.threads t = .wProc w x := by
  have room : ∀ {s : State K} (_ : Up n none s) {q : Queue (Job K)} (_ : Tgt s k w q) (_ : q.head ≠ none) (_ : s.threads c = .blockAdd w x) (_ : q.buf.length < q.cap),
      ∃ ls s' t, runI s ls = some s' ∧ Up n none s' ∧ s'.threads t = .wProc w x := by
    intro s U q T hh hb hroom
    have h : step s (.put c) = some ((s.setQ w { q with buf := q.buf ++ [x] }).goto c .idle) := by
      simp [step, hb, T.que, Queue.put, hroom]
    have U1 := up_put U h (by simp) U.running U.rw
    obtain ⟨ls, s', t, h1, rest⟩ := reaches hn (k := k) (w := w) (x := x) (post := []) q.contents U1 (q := { q with buf := q.buf ++ [x] })
      ⟨T.inmap, by simp [State.goto, State.setQ]⟩ hh (by simp [Queue.contents])
    exact ⟨.put c :: ls, s', t, by simp only [runI, Label.inner, if_true, h, Option.bind_some]; exact h1, rest⟩
  have main : ∀ (m : Nat) {s : State K} (_ : Up n none s) {q : Queue (Job K)} (_ : Tgt s k w q) (_ : q.head ≠ none) (_ : s.threads c = .blockAdd w x) (_ : q.buf.length ≤ m),
      ∃ ls s' t, runI s ls = some s' ∧ Up n none s' ∧ s'.threads t = .wProc w x := by
    intro m
    induction m with
    | zero =>
      intro s U q T hh hb hm
      have hcap : 1 ≤ q.cap := by rw [← T.que]; exact U.good.1.capPos w
      exact room U T hh hb (by omega)
    | succ m ih =>
      intro s U q T hh hb hm
      by_cases hroom : q.buf.length < q.cap
      · exact room U T hh hb hroom
      · -- the queue is full: one job is processed first
        obtain ⟨y, hy⟩ := Option.ne_none_iff_exists'.mp hh
        have hcap : 1 ≤ q.cap := by rw [← T.que]; exact U.good.1.capPos w
        obtain ⟨ls, s1, t, h1, U1, T1, g1⟩ := locate hn (U.hold rfl hb) T hy
        obtain ⟨s2, h2, U2, T2, _⟩ := advance U1 T1 g1
        cases hbf : q.buf with
        | nil => rw [hbf] at hroom; simp at hroom; omega
        | cons a b =>
          have hne : q.dequeue.1.contents ≠ [] := by
            have := (dequeue_spec hy).2.2.2
            intro e; rw [e] at this; simp [Queue.contents, hy, hbf] at this
          have hlen : q.dequeue.1.buf.length ≤ m := by
            rw [hbf] at hm
            simp only [Queue.dequeue, hy, Queue.take, Queue.backfill, hbf]
            simpa using hm
          obtain ⟨ls3, s3, t3, h3, rest⟩ := ih U2.free T2 (dequeue_head hy hne) (U2.blk _ _ rfl).2 hlen
          exact ⟨ls ++ ([.finish t] ++ ls3), s3, t3, runI_append h1 (runI_append h2 h3), rest⟩
  exact main _ U T hh hb (Nat.le_refl _)

/-! ### Emptying a queue, and waking a caller that waits for a key -/

/-- A goroutine that processes a job completes it. -/
theorem completes {s : State K} {t w : Nat} {x : Job K} (ht : s.threads t = .wProc w x ∨ s.threads t = .wAdv w x) :
    ∃ ls s', runI s ls = some s' ∧ Ev.comp x ∈ s'.log := by
  have adv : ∀ {s : State K} (_ : s.threads t = .wAdv w x), ∃ ls s', runI s ls = some s' ∧ Ev.comp x ∈ s'.log := by
    intro s ht
    have h : step s (.complete t) = some { (s.goto t (.wRel w)) with log := s.log ++ [.comp x] } := by simp [step, ht]
    exact ⟨[.complete t], { (s.goto t (.wRel w)) with log := s.log ++ [.comp x] }, by simp only [runI, Label.inner, if_true, h, Option.bind_some], by simp⟩
  rcases ht with ht | ht
  · have h : step s (.finish t) = some ((s.setQ w (s.wk w).queue.dequeue.1).goto t (.wAdv w x)) := by simp [step, ht]
    obtain ⟨ls, s', h1, rest⟩ := adv (s := (s.setQ w (s.wk w).queue.dequeue.1).goto t (.wAdv w x)) (goto_self _ _ _)
    exact ⟨.finish t :: ls, s', by simp only [runI, Label.inner, if_true, h, Option.bind_some]; exact h1, rest⟩
  · exact adv ht

/-- A queue with a head is emptied, including the jobs of callers blocked on it; the parked goroutine `B` is not touched. -/
theorem empties {n : Nat} {B : Option (Nat × Phase K)} (hn : 1 ≤ n) {k : K} {w : Nat} (hB : ∀ c x, B ≠ some (c, .blockAdd w x)) : ∀ (m : Nat) {s : State K} (_ : Up n B s)
    {q : Queue (Job K)} (_ : Tgt s k w q) (_ : q.head = none → q.size = 0) (_ : 2 * q.size - q.contents.length ≤ m),
    ∃ ls s' q', runI s ls = some s' ∧ Up n B s' ∧ Tgt s' k w q' ∧ q'.size = 0 := by
  intro m
  induction m with
  | zero =>
    intro s U q T hh hm
    obtain ⟨P, hP⟩ := U.good.1.cnt
    have hsz : (s.wk w).queue.size = (s.wk w).queue.contents.length + (P w).length := (hP w).2.2.2 U.running
    rw [T.que] at hsz
    exact ⟨[], s, q, rfl, U, T, by omega⟩
  | succ m ih =>
    intro s U q T hh hm
    by_cases h0 : q.size = 0
    · exact ⟨[], s, q, rfl, U, T, h0⟩
    have hne : q.head ≠ none := fun e => h0 (hh e)
    obtain ⟨y, hy⟩ := Option.ne_none_iff_exists'.mp hne
    obtain ⟨P, hP⟩ := U.good.1.cnt
    have hsz : (s.wk w).queue.size = (s.wk w).queue.contents.length + (P w).length := (hP w).2.2.2 U.running
    rw [T.que] at hsz
    have hd := dequeue_spec hy
    have proc : (q.dequeue.1.contents = [] → P w = []) → ∃ ls s' q', runI s ls = some s' ∧ Up n B s' ∧ Tgt s' k w q' ∧ q'.size = 0 := by
      intro hPe
      obtain ⟨ls, s1, t, h1, U1, T1, g1⟩ := locate hn U T hy
      obtain ⟨s2, h2, U2, T2, _⟩ := advance U1 T1 g1
      have hl : q.contents.length = q.dequeue.1.contents.length + 1 := by rw [hd.2.2.2]; rfl
      obtain ⟨ls3, s3, q3, h3, rest⟩ := ih U2 T2 (by
        intro e
        by_cases hc : q.dequeue.1.contents = []
        · rw [hPe hc, hl, hc] at hsz; simp at hsz; omega
        · exact absurd e (dequeue_head hy hc)) (by omega)
      exact ⟨ls ++ ([.finish t] ++ ls3), s3, q3, runI_append h1 (runI_append h2 h3), rest⟩
    by_cases hroom : q.buf.length < q.cap
    · cases hp : P w with
      | nil => exact proc (fun _ => hp)
      | cons c cs =>
        obtain ⟨x, hx⟩ := ((hP w).2.1 c).1 (by rw [hp]; simp)
        have hb : s.threads c = .blockAdd w x := by
          have hx : (s.threads c).blk = some (w, x) := hx
          cases ht : s.threads c <;> rw [ht] at hx <;> simp [Phase.blk] at hx
          rw [hx.1, hx.2]
        have h : step s (.put c) = some ((s.setQ w { q with buf := q.buf ++ [x] }).goto c .idle) := by
          simp [step, hb, T.que, Queue.put, hroom]
        have hU := up_step U h ⟨by simp, by
          intro c' p e
          refine ⟨?_, by simp⟩
          rintro e'
          injection e' with e'; subst e'
          have := (U.blk _ _ e).2
          rw [hb] at this; subst this
          exact hB _ _ e⟩ U.running U.rw
        obtain ⟨ls3, s3, q3, h3, rest⟩ := ih hU (q := { q with buf := q.buf ++ [x] }) ⟨T.inmap, by simp [State.goto, State.setQ]⟩ (fun e => absurd e hne) (by
          simp only [Queue.contents, List.length_append, List.length_cons, List.length_nil] at hm ⊢; omega)
        exact ⟨.put c :: ls3, s3, q3, by simp only [runI, Label.inner, if_true, h, Option.bind_some]; exact h3, rest⟩
    · have hcap : 1 ≤ q.cap := by rw [← T.que]; exact U.good.1.capPos w
      refine proc (fun e => ?_)
      have h2 := hd.2.2.2
      rw [e] at h2
      simp only [Queue.contents, hy, Option.toList_some, List.singleton_append, List.cons.injEq, true_and] at h2
      rw [h2] at hroom; simp at hroom; omega

/-- An idle worker is given up, which sets the signal and leaves room for a key. -/
theorem frees {n : Nat} {B : Option (Nat × Phase K)} (hn : 1 ≤ n) {s : State K} (U : Up n B s) {k : K} {w : Nat} {q : Queue (Job K)} (T : Tgt s k w q) (hq : q.size = 0) :
    ∃ ls s', runI s ls = some s' ∧ Up n B s' ∧ s'.sig = true ∧ s'.map.length < s'.maxKeys := by
  have hnone : q.contents = [] := by
    obtain ⟨P, hP⟩ := U.good.1.cnt
    have hsz : (s.wk w).queue.size = (s.wk w).queue.contents.length + (P w).length := (hP w).2.2.2 U.running
    rw [T.que] at hsz
    exact List.length_eq_zero_iff.mp (by omega)
  have hhead : q.head = none := by
    simp only [Queue.contents, List.append_eq_nil_iff, Option.toList_eq_nil_iff] at hnone; exact hnone.1
  have rel : ∀ {s : State K} {t : Nat} (_ : Up n B s) (_ : Tgt s k w q) (_ : s.threads t = .wRel w),
      ∃ ls s', runI s ls = some s' ∧ Up n B s' ∧ s'.sig = true ∧ s'.map.length < s'.maxKeys := by
    intro s t U T ht
    have hd : (s.wk w).queue.done = true := by rw [T.que]; simp [Queue.done, hq]
    have h : step s (.release t) = some (s.release t w) := by simp [step, ht]
    rw [show s.release t w = _ from if_pos hd] at h
    have U1 := up_step U h (by simp) U.running U.rw
    have h2 : step { (s.goto t .wSig) with
        map := s.map.filter (fun p => decide (some p.1 ≠ (s.wk w).key)), wk := upd s.wk w { s.wk w with key := none }, pool := w :: s.pool } (.signal t) =
        some { ({ (s.goto t .wSig) with
          map := s.map.filter (fun p => decide (some p.1 ≠ (s.wk w).key)), wk := upd s.wk w { s.wk w with key := none }, pool := w :: s.pool }.goto t .wTop) with
          sig := true } := by
      simp only [step, State.goto, upd_self, U.running, Bool.false_eq_true, if_false]
    refine ⟨[.release t, .signal t], _, by simp only [runI, Label.inner, if_true, h, h2, Option.bind_some], up_step U1 h2 (by simp) U.running U.rw, rfl, ?_⟩
    have hkey : (s.wk w).key = some k := U.good.1.mapKey _ _ T.inmap
    have hlen : s.map.length ≤ s.maxKeys := U.kept.len
    have : (s.map.filter (fun p => decide (some p.1 ≠ (s.wk w).key))).length < s.map.length := by
      rw [List.length_filter_lt_length_iff_exists]
      exact ⟨(k, w), T.inmap, by simp [hkey]⟩
    show (s.map.filter (fun p => decide (some p.1 ≠ (s.wk w).key))).length < s.maxKeys
    omega
  have got : ∀ {s : State K} {t : Nat} (_ : Up n B s) (_ : Tgt s k w q) (_ : s.threads t = .wGot w),
      ∃ ls s', runI s ls = some s' ∧ Up n B s' ∧ s'.sig = true ∧ s'.map.length < s'.maxKeys := by
    intro s t U T ht
    have e : s.peekStep t w = s.goto t (.wRel w) := by simp [State.peekStep, U.running, Queue.peek, T.que, hhead]
    have h : step s (.peek t) = some (s.goto t (.wRel w)) := by simp [step, ht, e]
    obtain ⟨ls, s', h1, rest⟩ := rel (s := s.goto t (.wRel w)) (up_step U h (by simp) U.running U.rw) ⟨T.inmap, T.que⟩ (goto_self _ _ _)
    exact ⟨.peek t :: ls, s', by simp only [runI, Label.inner, if_true, h, Option.bind_some]; exact h1, rest⟩
  have fromChan : ∀ {s : State K} (_ : Up n B s) (_ : Tgt s k w q) (_ : ∃ a b, s.chans s.cur = a ++ w :: b),
      ∃ ls s', runI s ls = some s' ∧ Up n B s' ∧ s'.sig = true ∧ s'.map.length < s'.maxKeys := by
    intro s U T h
    obtain ⟨a, b, hch⟩ := h
    obtain ⟨ls, s1, h1, U1, T1, g1⟩ := drain (t := 0) a U T (U.staffed.1 U.running 0 (by omega)) hch
    obtain ⟨ls2, s2, h2, rest⟩ := got U1 T1 g1
    exact ⟨ls ++ ls2, s2, runI_append h1 h2, rest⟩
  have send : ∀ {s : State K} {t : Nat} (_ : Up n B s) (_ : Tgt s k w q) (_ : s.threads t = .enq w ∨ s.threads t = .wEnq w),
      ∃ ls s', runI s ls = some s' ∧ Up n B s' ∧ s'.sig = true ∧ s'.map.length < s'.maxKeys := by
    intro s t U T ht
    have hroom := send_room U (t := t) (u := w) (by rcases ht with e | e <;> rw [e] <;> rfl)
    have h : ∃ p, step s (.send t) = some { (s.goto t p) with chans := upd s.chans s.cur (s.chans s.cur ++ [w]) } := by
      rcases ht with e | e
      · exact ⟨.idle, by simp only [step, e, State.send]; rw [if_pos ⟨U.rw, hroom⟩]⟩
      · exact ⟨.wTop, by simp only [step, e, State.send]; rw [if_pos ⟨U.rw, hroom⟩]⟩
    obtain ⟨p, h⟩ := h
    obtain ⟨ls, s', h1, rest⟩ := fromChan (s := { (s.goto t p) with chans := upd s.chans s.cur (s.chans s.cur ++ [w]) }) (up_step U h (by simp) U.running U.rw)
      ⟨T.inmap, T.que⟩ ⟨s.chans s.cur, [], by simp [State.goto]⟩
    exact ⟨.send t :: ls, s', by simp only [runI, Label.inner, if_true, h, Option.bind_some]; exact h1, rest⟩
  rcases U.kept.somewhere k w T.inmap with ⟨t, ht⟩ | h | ⟨h, _⟩
  · have ht : (s.threads t).hold = some w := ht
    cases hp : s.threads t with
    | enq u => rw [hp] at ht; simp only [Phase.hold, Option.some.injEq] at ht; subst ht; exact send U T (Or.inl hp)
    | wEnq u => rw [hp] at ht; simp only [Phase.hold, Option.some.injEq] at ht; subst ht; exact send U T (Or.inr hp)
    | wRel u => rw [hp] at ht; simp only [Phase.hold, Option.some.injEq] at ht; subst ht; exact rel U T hp
    | wAdv u z =>
      rw [hp] at ht; simp only [Phase.hold, Option.some.injEq] at ht; subst ht
      have h : step s (.complete t) = some { (s.goto t (.wRel u)) with log := s.log ++ [.comp z] } := by simp [step, hp]
      obtain ⟨ls, s', h1, rest⟩ := rel (s := { (s.goto t (.wRel u)) with log := s.log ++ [.comp z] }) (up_step U h (by simp) U.running U.rw) ⟨T.inmap, T.que⟩ (goto_self _ _ _)
      exact ⟨.complete t :: ls, s', by simp only [runI, Label.inner, if_true, h, Option.bind_some]; exact h1, rest⟩
    | wGot u => rw [hp] at ht; simp only [Phase.hold, Option.some.injEq] at ht; subst ht; exact got U T hp
    | wProc u z =>
      rw [hp] at ht; simp only [Phase.hold, Option.some.injEq] at ht; subst ht
      have hz := U.good.1.procHead t u z (by simp [State.view, hp, Phase.proc])
      have hz' : (s.wk u).queue.head = some z := hz
      rw [T.que, hhead] at hz'; simp at hz'
    | _ => rw [hp] at ht; simp [Phase.hold] at ht
  · exact fromChan U T (by
      have h : w ∈ s.chans s.cur := h
      exact List.append_of_mem h)
  · rw [show s.view.rw = s.rw from rfl, U.rw] at h; cases h

/-- What a caller does that finds a worker for its key. -/
theorem accepts {n : Nat} {B : Option (Nat × Phase K)} {s : State K} (U : Up n B s) {c : Nat} {x : Job K} (hc : s.threads c = .want x)
    (hr : (∃ w, s.lookup x.key = some w) ∨ s.map.length < s.maxKeys) :
    ∃ ls s' w q, runI s ls = some s' ∧ Up n B s' ∧ Tgt s' x.key w q ∧ q.head ≠ none ∧ (x ∈ q.contents ∨ s'.threads c = .blockAdd w x) := by
  have fin : ∀ {s1 : State K} {w : Nat} {b : Bool} (_ : step s (.lock c none) = some (s1.add c x w b)) (_ : (x.key, w) ∈ s1.map) (_ : s1.closed = false) (_ : s1.rw = false),
      ∃ ls s' w q, runI s ls = some s' ∧ Up n B s' ∧ Tgt s' x.key w q ∧ q.head ≠ none ∧ (x ∈ q.contents ∨ s'.threads c = .blockAdd w x) := by
    intro s1 w b h hm hcl hrw
    have hs := tryEnqueue_spec (q := (s1.wk w).queue) (x := x) (q' := ((s1.wk w).queue.tryEnqueue x).1) (b := ((s1.wk w).queue.tryEnqueue x).2) rfl
    refine ⟨[.lock c none], _, w, ((s1.wk w).queue.tryEnqueue x).1, by simp only [runI, Label.inner, if_true, h, Option.bind_some], up_step U h (by simp) hcl hrw, ⟨hm, ?_⟩, hs.2.2.2.1, ?_⟩
    · simp [State.add, State.goto, State.setQ]
    · cases hb : ((s1.wk w).queue.tryEnqueue x).2 with
      | true => left; rw [hs.2.2.2.2, hb]; simp
      | false => right; simp [State.add, State.goto, hb]
  cases hl : s.lookup x.key with
  | some w =>
    have h : step s (.lock c none) = some (s.add c x w false) := by simp [step, hc, State.lock, hl]
    exact fin h (lookup_some (v := s.view) hl) U.running U.rw
  | none =>
    have hlt : s.map.length < s.maxKeys := by
      rcases hr with ⟨w, hw⟩ | h
      · rw [hl] at hw; cases hw
      · exact h
    have h : step s (.lock c none) = some ((({ s with wk := upd s.wk s.nw { capacity := s.depth, queue := newQueue s.depth, key := none }, nw := s.nw + 1 } : State K).bind x.key s.nw).add c x s.nw true) := by
      have : ¬ s.map.length ≥ s.maxKeys := by omega
      simp [step, hc, State.lock, hl, this, State.poolGet]
    exact fin h (by simp [State.bind]) U.running U.rw

/-- A caller that finds a worker for its key gets its job processed. -/
theorem want_reaches {n : Nat} (hn : 1 ≤ n) {s : State K} (U : Up n none s) {c : Nat} {x : Job K} (hc : s.threads c = .want x)
    (hr : (∃ w, s.lookup x.key = some w) ∨ s.map.length < s.maxKeys) : ∃ ls s' t w, runI s ls = some s' ∧ Up n none s' ∧ s'.threads t = .wProc w x := by
  obtain ⟨ls, s1, w, q, h1, U1, T1, hh, hx⟩ := accepts U hc hr
  rcases hx with hx | hx
  · obtain ⟨a, b, e⟩ := List.append_of_mem hx
    obtain ⟨ls2, s2, t, h2, U2, g⟩ := reaches hn a U1 T1 hh e
    exact ⟨ls ++ ls2, s2, t, w, runI_append h1 h2, U2, g⟩
  · obtain ⟨ls2, s2, t, h2, U2, g⟩ := reaches_blocked hn U1 T1 hh hx
    exact ⟨ls ++ ls2, s2, t, w, runI_append h1 h2, U2, g⟩

/-- A caller waiting for a key gets its job processed once the signal is set and there is room. -/
theorem wake_reaches {n : Nat} (hn : 1 ≤ n) {s : State K} (U : Up n none s) {c : Nat} {x : Job K} (hc : s.threads c = .waiting x) (hs : s.sig = true)
    (hr : s.map.length < s.maxKeys) : ∃ ls s' t w, runI s ls = some s' ∧ Up n none s' ∧ s'.threads t = .wProc w x := by
  have h : step s (.wake c) = some { (s.goto c (.want x)) with sig := false } := by simp [step, hc, hs, U.running]
  obtain ⟨ls, s', t, w, h1, rest⟩ := want_reaches hn (s := { (s.goto c (.want x)) with sig := false }) (up_put U h (by simp) U.running U.rw) (goto_self _ _ _) (.inr hr)
  exact ⟨.wake c :: ls, s', t, w, by simp only [runI, Label.inner, if_true, h, Option.bind_some]; exact h1, rest⟩

/-- A caller waiting for a key gets its job processed if some key's queue can be emptied. -/
theorem waiting_reaches {n : Nat} (hn : 1 ≤ n) {s : State K} (U : Up n none s) {c : Nat} {x : Job K} (hc : s.threads c = .waiting x) {k : K} {w : Nat} {q : Queue (Job K)}
    (T : Tgt s k w q) (hh : q.head = none → q.size = 0) : ∃ ls s' t w, runI s ls = some s' ∧ Up n none s' ∧ s'.threads t = .wProc w x := by
  obtain ⟨ls, s1, q1, h1, U1, T1, hq⟩ := empties hn (B := some (c, .waiting x)) (k := k) (w := w) (by simp) (2 * q.size - q.contents.length).toNat (U.hold rfl hc) T hh (by omega)
  obtain ⟨ls2, s2, h2, U2, hs, hr⟩ := frees hn U1 T1 hq
  obtain ⟨ls3, s3, t, w', h3, rest⟩ := wake_reaches hn U2.free (U2.blk _ _ rfl).2 hs hr
  exact ⟨ls ++ (ls2 ++ ls3), s3, t, w', runI_append h1 (runI_append h2 h3), rest⟩

/-- The same when nobody has a key. -/
theorem waiting_reaches_nil {n : Nat} (hn : 1 ≤ n) {s : State K} (U : Up n none s) {c : Nat} {x : Job K} (hc : s.threads c = .waiting x) (hm : s.map = []) (hk : 1 ≤ s.maxKeys)
    (ha : Awake s) : ∃ ls s' t w, runI s ls = some s' ∧ Up n none s' ∧ s'.threads t = .wProc w x := by
  have hr : s.map.length < s.maxKeys := by rw [hm]; exact hk
  rcases ha with h | h | ⟨u, hu⟩ | ⟨u, y, hu⟩
  · exact wake_reaches hn U hc h hr
  · exact absurd hm h
  · have h : step s (.signal u) = some { (s.goto u .wTop) with sig := true } := by simp [step, hu, U.running]
    have hne : c ≠ u := by rintro rfl; rw [hc] at hu; cases hu
    obtain ⟨ls, s', t, w, h1, rest⟩ := wake_reaches hn (s := { (s.goto u .wTop) with sig := true }) (c := c) (x := x) (up_put U h (by simp) U.running U.rw)
      (by simp only [State.goto, upd_ne _ _ hne]; exact hc) rfl hr
    exact ⟨.signal u :: ls, s', t, w, by simp only [runI, Label.inner, if_true, h, Option.bind_some]; exact h1, rest⟩
  · obtain ⟨ls, s1, w, q, h1, U1, T1, hh, _⟩ := accepts (U.hold (c := c) (p := .waiting x) rfl hc) hu (.inr hr)
    obtain ⟨ls2, s2, t, w2, h2, rest⟩ := waiting_reaches hn U1.free (U1.blk _ _ rfl).2 T1 (fun e => absurd e hh)
    exact ⟨ls ++ ls2, s2, t, w2, runI_append h1 h2, rest⟩

/-! ### Every accepted job -/

/-- Every queue that has a stored job, or a caller blocked on it, has its head filled. -/
def Filled (s : State K) : Prop := ∀ k w, (k, w) ∈ s.map → (s.wk w).queue.head = none → (s.wk w).queue.size = 0

theorem waiting_any {n : Nat} (hn : 1 ≤ n) {s : State K} (U : Up n none s) (F : Filled s) {c : Nat} {x : Job K} (hc : s.threads c = .waiting x) (hk : 1 ≤ s.maxKeys)
    (ha : Awake s) : ∃ ls s' t w, runI s ls = some s' ∧ Up n none s' ∧ s'.threads t = .wProc w x := by
  cases hm : s.map with
  | nil => exact waiting_reaches_nil hn U hc hm hk ha
  | cons e m =>
    have he : (e.1, e.2) ∈ s.map := by rw [hm]; simp
    exact waiting_reaches hn U hc ⟨he, rfl⟩ (F _ _ he)

theorem want_any {n : Nat} (hn : 1 ≤ n) {s : State K} (U : Up n none s) (F : Filled s) {c : Nat} {x : Job K} (hc : s.threads c = .want x) (hk : 1 ≤ s.maxKeys) :
    ∃ ls s' t w, runI s ls = some s' ∧ Up n none s' ∧ s'.threads t = .wProc w x := by
  by_cases hr : (∃ w, s.lookup x.key = some w) ∨ s.map.length < s.maxKeys
  · exact want_reaches hn U hc hr
  · have hl : s.lookup x.key = none := by
      cases h : s.lookup x.key with
      | none => rfl
      | some w => exact absurd (.inl ⟨w, h⟩) hr
    have hfull : s.map.length ≥ s.maxKeys := by
      have : ¬ s.map.length < s.maxKeys := fun h => hr (.inr h)
      omega
    have h : step s (.lock c none) = some (s.goto c (.waiting x)) := by simp [step, hc, State.lock, hl, hfull]
    have hne : s.map ≠ [] := by intro e; rw [e] at hfull; simp at hfull; omega
    obtain ⟨ls, s', t, w, h1, rest⟩ := waiting_any hn (s := s.goto c (.waiting x)) (up_put U h (by simp) U.running U.rw) F (goto_self _ _ _) hk (.inr (.inl hne))
    exact ⟨.lock c none :: ls, s', t, w, by simp only [runI, Label.inner, if_true, h, Option.bind_some]; exact h1, rest⟩

/-- A limit change that is going on comes to its end. -/
theorem settles : ∀ (m : Nat) {s : State K} {t n i : Nat}, Good s → Kept s.view → s.threads t = .xfer n i → n - i ≤ m →
    ∃ ls s', runI s ls = some s' ∧ Kept s'.view ∧ s'.rw = false ∧ s'.closed = s.closed ∧ s'.map = s.map ∧ s'.wk = s.wk ∧ s'.log = s.log ∧ s'.maxKeys = s.maxKeys := by
  intro m
  induction m with
  | zero =>
    intro s t n i G N ht hm
    have h : step s (.xfer t) = some (s.publish t) := by
      have : ¬ i < n := by omega
      simp [step, ht, State.xferStep, this]
    exact ⟨[.xfer t], _, by simp only [runI, Label.inner, if_true, h, Option.bind_some], kept_next G N h (by simp), rfl, rfl, rfl, rfl, rfl, rfl⟩
  | succ m ih =>
    intro s t n i G N ht hm
    by_cases hi : i < n
    · cases hch : s.chans s.cur with
      | nil =>
        have h : step s (.xfer t) = some (s.publish t) := by simp [step, ht, State.xferStep, hch]
        exact ⟨[.xfer t], _, by simp only [runI, Label.inner, if_true, h, Option.bind_some], kept_next G N h (by simp), rfl, rfl, rfl, rfl, rfl, rfl⟩
      | cons w rest =>
        have h : step s (.xfer t) = some { (s.goto t (.xfer n (i + 1))) with
            chans := upd (upd s.chans s.cur rest) (s.cur + 1) (s.chans (s.cur + 1) ++ [w]) } := by simp [step, ht, State.xferStep, hch, hi]
        obtain ⟨ls, s', h1, r1, r2, r3, r4, r5, r6, r7⟩ := ih (good_next G h) (kept_next G N h (by simp)) (t := t) (n := n) (i := i + 1) (goto_self _ _ _) (by omega)
        exact ⟨.xfer t :: ls, s', by simp only [runI, Label.inner, if_true, h, Option.bind_some]; exact h1, r1, r2, r3, r4, r5, r6, r7⟩
    · have h : step s (.xfer t) = some (s.publish t) := by simp [step, ht, State.xferStep, hi]
      exact ⟨[.xfer t], _, by simp only [runI, Label.inner, if_true, h, Option.bind_some], kept_next G N h (by simp), rfl, rfl, rfl, rfl, rfl, rfl⟩

end Verif.Scheduler
