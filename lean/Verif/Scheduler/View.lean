import Verif.Scheduler.Model
/-
A view of the scheduler state that forgets which exact line a goroutine is at and keeps what it owns.
Every step of the scheduler either leaves the view alone or changes it in one of a few ways (`VStep`).
-/
namespace Verif.Scheduler

set_option linter.unusedTactic false

variable {K : Type}

/-- The worker a goroutine is responsible for (it received or created it and has not passed it on), async_scheduler.go:277, 284-287, 396. -/
def Phase.hold : Phase K → Option Nat
  | .enq w | .wGot w | .wProc w _ | .wAdv w _ | .wRel w | .wEnq w => some w
  | _ => none

/-- The job a caller has accepted and not yet stored in a queue (async_scheduler.go:245-275). -/
def Phase.pend : Phase K → Option (Job K)
  | .want x | .waiting x | .blockAdd _ x => some x
  | _ => none

/-- The blocked send of a caller (async_scheduler.go:275). -/
def Phase.blk : Phase K → Option (Nat × Job K)
  | .blockAdd w x => some (w, x)
  | _ => none

/-- The running processor call (async_scheduler.go:88). -/
def Phase.proc : Phase K → Option (Nat × Job K)
  | .wProc w x => some (w, x)
  | _ => none

/-- The finished processor call whose completion is not yet submitted (async_scheduler.go:89-90). -/
def Phase.adv : Phase K → Option (Nat × Job K)
  | .wAdv w x => some (w, x)
  | _ => none

/-- The running channel transfer (async_scheduler.go:337-344). -/
def Phase.xf : Phase K → Option (Nat × Nat)
  | .xfer n i => some (n, i)
  | _ => none

/-- The view: shared variables and what each goroutine owns (async_scheduler.go:106-118). -/
structure View (K : Type) where
  closed : Bool
  map : List (K × Nat)
  maxKeys : Nat
  chans : Nat → List Nat
  caps : Nat → Nat
  cur : Nat
  rw : Bool
  wk : Nat → Worker K
  nw : Nat
  pool : List Nat
  log : List (Ev K)
  hold : Nat → Option Nat
  pend : Nat → Option (Job K)
  blk : Nat → Option (Nat × Job K)
  proc : Nat → Option (Nat × Job K)
  adv : Nat → Option (Nat × Job K)
  xf : Nat → Option (Nat × Nat)

/-- The view of a state (async_scheduler.go:106-118). -/
def State.view (s : State K) : View K where
  closed := s.closed
  map := s.map
  maxKeys := s.maxKeys
  chans := s.chans
  caps := s.caps
  cur := s.cur
  rw := s.rw
  wk := s.wk
  nw := s.nw
  pool := s.pool
  log := s.log
  hold := fun t => (s.threads t).hold
  pend := fun t => (s.threads t).pend
  blk := fun t => (s.threads t).blk
  proc := fun t => (s.threads t).proc
  adv := fun t => (s.threads t).adv
  xf := fun t => (s.threads t).xf

/-- `View` version of the map lookup (async_scheduler.go:402). -/
def View.lookup [DecidableEq K] (v : View K) (k : K) : Option Nat := (v.map.find? (fun p => decide (p.1 = k))).map (·.2)

/-- Replaces the queue of worker `w` (async_scheduler.go:39-47). -/
def View.setQ (v : View K) (w : Nat) (q : Queue (Job K)) : View K :=
  { v with wk := upd v.wk w { v.wk w with queue := q } }

@[simp] theorem upd_self {β : Type} (f : Nat → β) (i : Nat) (v : β) : upd f i v i = v := by simp [upd]
theorem upd_ne {β : Type} (f : Nat → β) {i j : Nat} (v : β) (h : j ≠ i) : upd f i v j = f j := by simp [upd, h]
theorem upd_same {β : Type} (f : Nat → β) (i : Nat) (v : β) (h : f i = v) : upd f i v = f := by
  funext j; by_cases e : j = i <;> simp [upd, e, h]
theorem upd_upd {β : Type} (f : Nat → β) (i : Nat) (v v' : β) : upd (upd f i v) i v' = upd f i v' := by
  funext j; by_cases e : j = i <;> simp [upd, e]
theorem comp_upd {β γ : Type} (g : β → γ) (f : Nat → β) (i : Nat) (v : β) :
    (fun j => g (upd f i v j)) = upd (fun j => g (f j)) i (g v) := by
  funext j; by_cases e : j = i <;> simp [upd, e]

variable [DecidableEq K]

/-- The ways a step changes the view; each constructor names the lines of async_scheduler.go (the same as the label of that name in `step`). -/
inductive VStep (v : View K) : View K → Prop where
  /-- `Schedule` accepts a job (231-235) -/
  | call (x : Job K) (h0 : v.closed = false) (h1 : v.pend x.caller = none) (h2 : v.blk x.caller = none) :
      VStep v { v with pend := upd v.pend x.caller (some x), log := v.log ++ [.sched x] }
  /-- a caller gives up because the scheduler is closed (64-65, 256-258) -/
  | drop (t : Nat) (x : Job K) (h0 : v.closed = true) (h1 : v.pend t = some x) :
      VStep v { v with pend := upd v.pend t none, blk := upd v.blk t none }
  /-- a job is stored in the queue of a known key (271-272) -/
  | addOld (t : Nat) (x : Job K) (w : Nat) (q : Queue (Job K)) (h1 : v.pend t = some x) (h2 : v.blk t = none)
      (h3 : v.lookup x.key = some w) (h4 : (v.wk w).queue.tryEnqueue x = (q, true)) :
      VStep v { (v.setQ w q) with pend := upd v.pend t none }
  /-- the queue is full, the caller goes on to block (271-275) -/
  | blockOld (t : Nat) (x : Job K) (w : Nat) (q : Queue (Job K)) (h1 : v.pend t = some x) (h2 : v.blk t = none)
      (h3 : v.lookup x.key = some w) (h4 : (v.wk w).queue.tryEnqueue x = (q, false)) :
      VStep v { (v.setQ w q) with blk := upd v.blk t (some (w, x)) }
  /-- a worker is taken for a new key and gets its first job (406-413, 271-277) -/
  | addNew (t : Nat) (x : Job K) (w nw' : Nat) (pool' : List Nat) (wk' : Nat → Worker K)
      (h1 : v.pend t = some x) (h2 : v.blk t = none) (h3 : v.lookup x.key = none) (h4 : v.map.length < v.maxKeys)
      (h5 : (w ∈ v.pool ∧ pool' = v.pool.erase w ∧ nw' = v.nw) ∨ (w = v.nw ∧ pool' = v.pool ∧ nw' = v.nw + 1))
      (h6 : ∀ u, u ≠ w → wk' u = v.wk u) (h7 : (wk' w).key = some x.key) (h8 : (wk' w).queue.head = some x) (h9 : (wk' w).queue.buf = [])
      (h10 : (wk' w).queue.size = 1) (h11 : v.hold t = none) (h12 : 1 ≤ (wk' w).queue.cap) :
      VStep v { v with map := v.map ++ [(x.key, w)], wk := wk', pool := pool', nw := nw', hold := upd v.hold t (some w), pend := upd v.pend t none }
  /-- a blocked send succeeds (63) -/
  | put (t : Nat) (x : Job K) (w : Nat) (q : Queue (Job K)) (h1 : v.pend t = some x) (h2 : v.blk t = some (w, x))
      (h4 : (v.wk w).queue.put x = some q) :
      VStep v { (v.setQ w q) with pend := upd v.pend t none, blk := upd v.blk t none }
  /-- `enqueueWorker` (365-372) -/
  | send (t w : Nat) (h1 : v.hold t = some w) (h2 : v.proc t = none) (h3 : v.adv t = none) (h4 : v.rw = false)
      (h5 : (v.chans v.cur).length < v.caps v.cur) :
      VStep v { v with hold := upd v.hold t none, chans := upd v.chans v.cur (v.chans v.cur ++ [w]) }
  /-- a worker goroutine receives (284-286) -/
  | recv (t r w : Nat) (rest : List Nat) (h1 : v.hold t = none) (h2 : v.chans r = w :: rest) :
      VStep v { v with hold := upd v.hold t (some w), chans := upd v.chans r rest }
  /-- the processor call starts (84-88) -/
  | start (t w : Nat) (x : Job K) (h0 : v.closed = false) (h1 : v.hold t = some w) (h2 : v.proc t = none) (h3 : v.adv t = none)
      (h4 : (v.wk w).queue.head = some x) :
      VStep v { v with proc := upd v.proc t (some (w, x)), log := v.log ++ [.start x] }
  /-- the processor call returns and the queue advances (88-89) -/
  | finish (t w : Nat) (x : Job K) (h1 : v.proc t = some (w, x)) (h2 : v.adv t = none) :
      VStep v { (v.setQ w (v.wk w).queue.dequeue.1) with proc := upd v.proc t none, adv := upd v.adv t (some (w, x)) }
  /-- the completion is submitted (90) -/
  | complete (t w : Nat) (x : Job K) (h1 : v.adv t = some (w, x)) (h2 : v.proc t = none) :
      VStep v { v with adv := upd v.adv t none, log := v.log ++ [.comp x] }
  /-- an empty worker is released (386-391) -/
  | release (t w : Nat) (h1 : v.hold t = some w) (h2 : v.proc t = none) (h3 : v.adv t = none) (h4 : (v.wk w).queue.size ≤ 0) :
      VStep v { v with
        hold := upd v.hold t none
        map := v.map.filter (fun p => decide (some p.1 ≠ (v.wk w).key))
        wk := upd v.wk w { v.wk w with key := none }
        pool := w :: v.pool }
  /-- the limit is lowered or kept (310-325) -/
  | setMax (n : Nat) (h1 : n ≤ v.maxKeys) : VStep v { v with maxKeys := n }
  /-- the limit is raised, the new channel is made (310-335) -/
  | grow (t n : Nat) (h1 : v.maxKeys < n) (h2 : v.rw = false) (h3 : v.xf t = none) :
      VStep v { v with
        maxKeys := n, rw := true, xf := upd v.xf t (some (n, 0)),
        chans := upd v.chans (v.cur + 1) [], caps := upd v.caps (v.cur + 1) (n + 1) }
  /-- one worker moves to the new channel (337-340) -/
  | xfer (t n i w : Nat) (rest : List Nat) (h1 : v.xf t = some (n, i)) (h2 : i < n) (h3 : v.chans v.cur = w :: rest) :
      VStep v { v with
        xf := upd v.xf t (some (n, i + 1))
        chans := upd (upd v.chans v.cur rest) (v.cur + 1) (v.chans (v.cur + 1) ++ [w]) }
  /-- the new channel becomes the current one (346-347) -/
  | publish (t n i : Nat) (h1 : v.xf t = some (n, i)) (h2 : n ≤ i ∨ v.chans v.cur = []) :
      VStep v { v with xf := upd v.xf t none, cur := v.cur + 1, rw := false }
  /-- the run status ends -/
  | close : VStep v { v with closed := true }

/-- How one view relates to the next (async_scheduler.go:231-397). -/
def VNext (v v' : View K) : Prop := v' = v ∨ VStep v v'

/-- Facts that hold between the parts of every view, because they come from one program counter (async_scheduler.go:231-301). -/
structure Coh (v : View K) : Prop where
  proc_hold : ∀ t w x, v.proc t = some (w, x) → v.hold t = some w
  adv_hold : ∀ t w x, v.adv t = some (w, x) → v.hold t = some w
  excl : ∀ t, v.proc t = none ∨ v.adv t = none
  blk_pend : ∀ t w x, v.blk t = some (w, x) → v.pend t = some x
  hold_pend : ∀ t, v.hold t = none ∨ v.pend t = none
  xf_hold : ∀ t, v.xf t = none ∨ v.hold t = none

omit [DecidableEq K] in
theorem coh_view (s : State K) : Coh s.view where
  proc_hold := by intro t w x h; simp only [State.view] at *; cases e : s.threads t <;> simp_all [Phase.proc, Phase.hold]
  adv_hold := by intro t w x h; simp only [State.view] at *; cases e : s.threads t <;> simp_all [Phase.adv, Phase.hold]
  excl := by intro t; simp only [State.view]; cases e : s.threads t <;> simp_all [Phase.adv, Phase.proc]
  blk_pend := by intro t w x h; simp only [State.view] at *; cases e : s.threads t <;> simp_all [Phase.blk, Phase.pend]
  hold_pend := by intro t; simp only [State.view]; cases e : s.threads t <;> simp_all [Phase.hold, Phase.pend]
  xf_hold := by intro t; simp only [State.view]; cases e : s.threads t <;> simp_all [Phase.hold, Phase.xf]

omit [DecidableEq K] in
theorem view_goto (s : State K) (t : Nat) (p : Phase K) : (s.goto t p).view =
    { s.view with
      hold := upd s.view.hold t p.hold, pend := upd s.view.pend t p.pend, blk := upd s.view.blk t p.blk,
      proc := upd s.view.proc t p.proc, adv := upd s.view.adv t p.adv, xf := upd s.view.xf t p.xf } := by
  simp only [State.view, State.goto, comp_upd]

omit [DecidableEq K] in
theorem view_ext {v v' : View K} (h1 : v.closed = v'.closed) (h2 : v.map = v'.map) (h3 : v.maxKeys = v'.maxKeys) (h4 : v.chans = v'.chans)
    (h5 : v.caps = v'.caps) (h6 : v.cur = v'.cur) (h7 : v.rw = v'.rw) (h8 : v.wk = v'.wk) (h9 : v.nw = v'.nw) (h10 : v.pool = v'.pool)
    (h11 : v.log = v'.log) (h12 : v.hold = v'.hold) (h13 : v.pend = v'.pend) (h14 : v.blk = v'.blk) (h15 : v.proc = v'.proc)
    (h16 : v.adv = v'.adv) (h17 : v.xf = v'.xf) : v = v' := by
  cases v; cases v'; simp_all


/-- Proves that the view of a successor state is the given record, from the phase equation `h`. -/
syntax "vw " ident term:max : tactic
macro_rules
  | `(tactic| vw $h:ident $t:term) => `(tactic|
      (apply view_ext <;> first
        | rfl
        | (simp only [State.view, State.goto, State.setQ, View.setQ, State.publish]
           funext j
           by_cases e : j = $t <;> first
             | (subst e; simp [upd, $h:ident, Phase.hold, Phase.pend, Phase.blk, Phase.proc, Phase.adv, Phase.xf]; done)
             | (simp [upd, e, $h:ident, Phase.hold, Phase.pend, Phase.blk, Phase.proc, Phase.adv, Phase.xf]; done))))

theorem backfill_size {T : Type} (q : Queue T) : q.backfill.size = q.size := by
  unfold Queue.backfill; split <;> rfl
theorem backfill_cap {T : Type} (q : Queue T) : q.backfill.cap = q.cap := by
  unfold Queue.backfill; split <;> rfl
theorem backfill_contents {T : Type} (q : Queue T) (h : q.head = none) : q.backfill.contents = q.contents := by
  unfold Queue.backfill Queue.contents; split <;> simp_all

/-- `tryEnqueue` on an empty queue stores the item in `head`. -/
theorem tryEnqueue_empty {T : Type} (q : Queue T) (x : T) (h : q.contents = []) (hs : q.size = 0) :
    q.tryEnqueue x = ({ size := 1, head := some x, buf := [], cap := q.cap }, true) := by
  obtain ⟨sz, hd, bf, cp⟩ := q
  simp only [Queue.contents, List.append_eq_nil_iff, Option.toList_eq_nil_iff] at h
  obtain ⟨rfl, rfl⟩ := h
  simp only at hs; subst hs
  simp [Queue.tryEnqueue, Queue.tryEnqueue1, Queue.backfill]

theorem step_view {s s' : State K} {l : Label K} (E : ∀ w ∈ s.pool, (s.wk w).queue.contents = [] ∧ (s.wk w).queue.size = 0 ∧ 1 ≤ (s.wk w).queue.cap)
    (h : step s l = some s') : VNext s.view s'.view := by
  cases l with
  | call x =>
    simp only [step] at h
    split at h
    · rename_i ht
      split at h
      · simp at h
      · rename_i hc
        simp only [Option.some.injEq] at h; subst h
        right
        have := VStep.call (v := s.view) x (by simpa [State.view] using hc) (by simp [State.view, ht, Phase.pend]) (by simp [State.view, ht, Phase.blk])
        convert this using 1
        vw ht (x.caller)
    · simp at h
  | lock t pick =>
    simp only [step] at h
    split at h
    · rename_i x ht
      unfold State.lock at h
      split at h
      · rename_i w hw
        simp only [Option.some.injEq] at h; subst h
        right
        unfold State.add
        rcases hq : (s.wk w).queue.tryEnqueue x with ⟨q, b⟩
        cases b with
        | true =>
          have := VStep.addOld (v := s.view) t x w q (by simp [State.view, ht, Phase.pend]) (by simp [State.view, ht, Phase.blk]) hw hq
          convert this using 1
          vw ht t
        | false =>
          have := VStep.blockOld (v := s.view) t x w q (by simp [State.view, ht, Phase.pend]) (by simp [State.view, ht, Phase.blk]) hw hq
          convert this using 1
          vw ht t
      · rename_i hw
        split at h
        · simp only [Option.some.injEq] at h; subst h
          left; vw ht t
        · rename_i hlen
          right
          simp only [Option.map_eq_some_iff] at h
          obtain ⟨⟨s1, w⟩, hp, rfl⟩ := h
          unfold State.poolGet at hp
          split at hp
          · rename_i w0
            split at hp
            · rename_i hin
              simp only [Option.some.injEq, Prod.mk.injEq] at hp
              obtain ⟨rfl, rfl⟩ := hp
              obtain ⟨e1, e2, e3⟩ := E w0 hin.1
              have hq := tryEnqueue_empty (s.wk w0).queue x e1 e2
              have := VStep.addNew (v := s.view) t x w0 s.nw (s.pool.erase w0)
                (upd s.wk w0 { s.wk w0 with key := some x.key, queue := { size := 1, head := some x, buf := [], cap := (s.wk w0).queue.cap } })
                (by simp [State.view, ht, Phase.pend]) (by simp [State.view, ht, Phase.blk]) hw (by simpa [State.view] using hlen)
                (Or.inl ⟨hin.1, rfl, rfl⟩) (fun u hu => upd_ne _ _ hu) (by simp) (by simp) (by simp) (by simp) (by simp [State.view, ht, Phase.hold])
                (by simpa using e3)
              convert this using 1
              unfold State.add State.bind
              simp only [upd_self, hq]
              apply view_ext <;> first
                | rfl
                | (simp only [State.view, State.goto, State.setQ, upd_upd, upd_self]; done)
                | (simp only [State.view, State.goto, State.setQ]
                   funext j
                   by_cases e : j = t <;> simp [upd, e, ht, Phase.hold, Phase.pend, Phase.blk, Phase.proc, Phase.adv, Phase.xf])
            · simp at hp
          · simp only [Option.some.injEq, Prod.mk.injEq] at hp
            obtain ⟨rfl, rfl⟩ := hp
            have hq := tryEnqueue_empty (newQueue s.depth) x rfl rfl
            have := VStep.addNew (v := s.view) t x s.nw (s.nw + 1) s.pool
                (upd s.wk s.nw { capacity := s.depth, key := some x.key, queue := { size := 1, head := some x, buf := [], cap := (newQueue (T := Job K) s.depth).cap } })
                (by simp [State.view, ht, Phase.pend]) (by simp [State.view, ht, Phase.blk]) hw (by simpa [State.view] using hlen)
                (Or.inr ⟨rfl, rfl, rfl⟩) (fun u hu => upd_ne _ _ hu) (by simp) (by simp) (by simp) (by simp) (by simp [State.view, ht, Phase.hold])
                (by simp only [upd_self, newQueue]; split <;> omega)
            convert this using 1
            unfold State.add State.bind
            simp only [upd_self, hq]
            apply view_ext <;> first
                | rfl
                | (simp only [State.view, State.goto, State.setQ, upd_upd, upd_self]; done)
                | (simp only [State.view, State.goto, State.setQ]
                   funext j
                   by_cases e : j = t <;> simp [upd, e, ht, Phase.hold, Phase.pend, Phase.blk, Phase.proc, Phase.adv, Phase.xf])
    · simp at h
  | wake t =>
    simp only [step] at h
    split at h
    · rename_i x ht
      split at h
      · simp only [Option.some.injEq] at h; subst h
        by_cases hc : s.closed = true
        · right
          have := VStep.drop (v := s.view) t x hc (by simp [State.view, ht, Phase.pend])
          convert this using 1
          simp only [hc]
          vw ht t
        · left
          simp only [hc]
          vw ht t
      · simp at h
    · simp at h
  | put t =>
    simp only [step] at h
    split at h
    · rename_i w x ht
      simp only [Option.map_eq_some_iff] at h
      obtain ⟨q, hq, rfl⟩ := h
      right
      have := VStep.put (v := s.view) t x w q (by simp [State.view, ht, Phase.pend]) (by simp [State.view, ht, Phase.blk]) hq
      convert this using 1
      vw ht t
    · simp at h
  | cancel t =>
    simp only [step] at h
    split at h
    · rename_i w x ht
      split at h
      · rename_i hc
        simp only [Option.some.injEq] at h; subst h
        right
        have := VStep.drop (v := s.view) t x hc (by simp [State.view, ht, Phase.pend])
        convert this using 1
        vw ht t
      · simp at h
    · simp at h
  | send t =>
    simp only [step] at h
    split at h
    all_goals first
      | (simp at h; done)
      | (rename_i w ht
         unfold State.send at h
         split at h
         · rename_i hr
           simp only [Option.some.injEq] at h; subst h
           right
           have := VStep.send (v := s.view) t w (by simp [State.view, ht, Phase.hold]) (by simp [State.view, ht, Phase.proc])
             (by simp [State.view, ht, Phase.adv]) hr.1 hr.2
           convert this using 1
           vw ht t
         · simp at h)
  | eval t =>
    simp only [step] at h
    split at h
    · rename_i ht
      simp only [Option.some.injEq] at h; subst h
      left; vw ht t
    · simp at h
  | recv t =>
    simp only [step] at h
    split at h
    · rename_i r ht
      unfold State.recv at h
      split at h
      · rename_i w rest hr
        simp only [Option.some.injEq] at h; subst h
        right
        have := VStep.recv (v := s.view) t r w rest (by simp [State.view, ht, Phase.hold]) hr
        convert this using 1
        vw ht t
      · split at h
        · simp only [Option.some.injEq] at h; subst h
          left; vw ht t
        · simp at h
    · simp at h
  | exit t =>
    simp only [step] at h
    split at h
    · rename_i r ht
      split at h
      · simp only [Option.some.injEq] at h; subst h
        left; vw ht t
      · simp at h
    · simp at h
  | peek t =>
    simp only [step] at h
    split at h
    · rename_i w ht
      simp only [Option.some.injEq] at h; subst h
      unfold State.peekStep
      split
      · left; vw ht t
      · rename_i hc
        split
        · left; vw ht t
        · rename_i x hx
          right
          have := VStep.start (v := s.view) t w x (by simpa [State.view] using hc) (by simp [State.view, ht, Phase.hold]) (by simp [State.view, ht, Phase.proc])
             (by simp [State.view, ht, Phase.adv]) hx
          convert this using 1
          vw ht t
    · simp at h
  | finish t =>
    simp only [step] at h
    split at h
    · rename_i w x ht
      simp only [Option.some.injEq] at h; subst h
      right
      have := VStep.finish (v := s.view) t w x (by simp [State.view, ht, Phase.proc]) (by simp [State.view, ht, Phase.adv])
      convert this using 1
      vw ht t
    · simp at h
  | complete t =>
    simp only [step] at h
    split at h
    · rename_i w x ht
      simp only [Option.some.injEq] at h; subst h
      right
      have := VStep.complete (v := s.view) t w x (by simp [State.view, ht, Phase.adv]) (by simp [State.view, ht, Phase.proc])
      convert this using 1
      vw ht t
    · simp at h
  | release t =>
    simp only [step] at h
    split at h
    · rename_i w ht
      simp only [Option.some.injEq] at h; subst h
      unfold State.release
      split
      · rename_i hd
        right
        have := VStep.release (v := s.view) t w (by simp [State.view, ht, Phase.hold]) (by simp [State.view, ht, Phase.proc])
             (by simp [State.view, ht, Phase.adv]) (by simpa [Queue.done, State.view] using hd)
        convert this using 1
        vw ht t
      · left; vw ht t
    · simp at h
  | signal t =>
    simp only [step] at h
    split at h
    · rename_i ht
      simp only [Option.some.injEq] at h; subst h
      left; vw ht t
    · simp at h
  | setMax t n =>
    simp only [step] at h
    split at h
    · rename_i ht
      unfold State.setMax at h
      split at h
      · rename_i hr
        split at h
        · rename_i hn
          simp only [Option.some.injEq] at h; subst h
          right
          have := VStep.grow (v := s.view) t n hn hr (by simp [State.view, ht, Phase.xf])
          convert this using 1
          vw ht t
        · rename_i hn
          simp only [Option.some.injEq] at h; subst h
          right
          exact VStep.setMax (v := s.view) n (by simpa [State.view] using hn)
      · simp at h
    · simp at h
  | xfer t =>
    simp only [step] at h
    split at h
    · rename_i n i ht
      simp only [Option.some.injEq] at h; subst h
      right
      have hx : s.view.xf t = some (n, i) := by simp [State.view, ht, Phase.xf]
      unfold State.xferStep
      split
      · rename_i hi
        split
        · rename_i w rest hr
          have := VStep.xfer (v := s.view) t n i w rest hx hi hr
          convert this using 1
          vw ht t
        · rename_i hr
          have := VStep.publish (v := s.view) t n i hx (Or.inr hr)
          convert this using 1
          vw ht t
      · rename_i hi
        have := VStep.publish (v := s.view) t n i hx (Or.inl (by omega))
        convert this using 1
        vw ht t
    · simp at h
  | setDepth n =>
    simp only [step, Option.some.injEq] at h; subst h
    left; rfl
  | close =>
    simp only [step, Option.some.injEq] at h; subst h
    right; exact VStep.close

end Verif.Scheduler
