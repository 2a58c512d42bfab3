import Verif.Worker.Fifo
/-
Progress of the partition worker: its own steps cannot go on for ever, and when none is possible all work is done.
-/
set_option linter.unusedSimpArgs false
namespace Verif.Worker

variable {c : Cfg}

/-! ### The pusher waits for the signal -/

/-- While the pusher waits (153), the goroutine that signals runs or has signalled. -/
def InvW (s : PW) : Prop := s.push = .wait → s.waiting = true ∨ s.signal = true

theorem invW_step {s s' : PW} (I : InvW s) {e : Bool} (h : St c s e s') : InvW s' := by
  cases h with
  | @ijLost ij ijIn back p' hp _ _ =>
    rcases hp with ⟨_, _, rfl⟩ | ⟨r, _, _, rfl⟩ <;> (intro h; cases h)
  | @putEv it back hp _ _ =>
    intro h
    change afterPut it back = _ at h
    cases back with
    | none => cases h
    | some r => unfold afterPut at h; dsimp only at h; split at h <;> cases h
  | @putIj it back hp _ _ =>
    intro h
    change afterPut it back = _ at h
    cases back with
    | none => cases h
    | some r => unfold afterPut at h; dsimp only at h; split at h <;> cases h
  | stopSend => exact fun _ => .inl rfl
  | waited => exact fun _ => .inr rfl
  | _ => first | exact I | (intro h; cases h)

theorem invW_reach {s : PW} (h : Reach c s) : InvW s := by
  induction h with
  | init => intro h; cases h
  | step l _ hs ih => exact invW_step ih (st_of_step hs)

/-! ### A measure -/

/-- What the pusher still has to do. -/
def pushW : Push → Nat
  | .unborn => 8
  | .idle => 6
  | .next r => 8 + 20 * r.length
  | .inter r => 9 + 20 * r.length
  | .slot _ none => 21
  | .slot _ (some r) => 24 + 20 * r.length
  | .add _ none => 20
  | .add _ (some r) => 23 + 20 * r.length
  | .put _ none => 15
  | .put _ (some r) => 18 + 20 * r.length
  | .stop => 5
  | .wait => 1
  | .closed => 0

def wkW : Wk → Nat
  | .assign _ => 6
  | .run _ => 4
  | _ => 0

def batchW (b : List (Option Nat)) : Nat := 3 + 20 * b.length

/-- The number of jobs that complete their event. -/
def trueJobs (s : PW) : Nat := s.jobs.countP (·.2)

/-- Completed events whose transaction did not pass them. -/
def unfin (s : PW) : Nat := s.done.countP fun i => decide (i ∉ s.fin)

def work (s : PW) : Nat :=
  (match s.sending with
    | some b => batchW b + 1
    | none => 0) +
  (s.input.map batchW).sum + 20 * s.ijIn.length + pushW s.push + 7 * s.evq.length + 7 * s.ijq.length + 3 * s.buf.length +
  wkW s.wk + 3 * s.pend.length + s.jobs.length + unfin s + s.roots +
  (if s.waiting then 2 else 0) + (if s.signal then 1 else 0)

theorem trueJobs_le {s : PW} (B : InvB c s) : trueJobs s ≤ (wkRun s.wk).length + s.pend.length := by
  have h1 : trueJobs s = ((s.jobs.filter (·.2)).map (·.1)).length := by
    unfold trueJobs; rw [List.countP_eq_length_filter, List.length_map]
  have hinj : ∀ x ∈ s.jobs.filter (·.2), ∀ y ∈ s.jobs.filter (·.2), x.1 = y.1 → x = y := by
    intro x hx y hy e
    have hx2 := (List.mem_filter.1 hx).2
    have hy2 := (List.mem_filter.1 hy).2
    obtain ⟨x1, x2⟩ := x
    obtain ⟨y1, y2⟩ := y
    dsimp only at hx2 hy2 e
    rw [e, hx2, hy2]
  have hn : ((s.jobs.filter (·.2)).map (·.1)).Nodup := List.Nodup.map_on (fun x hx y hy e => hinj x hx y hy e) B.j2
  have hs : ((s.jobs.filter (·.2)).map (·.1)) ⊆ wkRun s.wk ++ s.pend := by
    intro x hx
    obtain ⟨⟨y, b⟩, hy, rfl⟩ := List.mem_map.1 hx
    have hb := (List.mem_filter.1 hy).2
    dsimp only at hb
    subst hb
    rcases B.j1 y (List.mem_filter.1 hy).1 with h | h
    · exact List.mem_append.2 (.inr h)
    · rw [h]; exact List.mem_append.2 (.inl (by simp [wkRun]))
  have := (List.subperm_of_subset hn hs).length_le
  rw [h1]; rw [List.length_append] at this; exact this

/-- The remaining work. -/
def todo (s : PW) : Int := (work s : Int) - 2 * trueJobs s

theorem todo_nonneg {s : PW} (B : InvB c s) : 0 ≤ todo s := by
  have h1 := trueJobs_le B
  have h2 : 2 * (wkRun s.wk).length ≤ wkW s.wk := by
    cases s.wk <;> simp [wkRun, wkW]
  have h3 : wkW s.wk + 3 * s.pend.length ≤ work s := by unfold work; omega
  unfold todo; omega

theorem afterPut_w (it : It) (b : Option (List (Option Nat))) : pushW (afterPut it b) + 9 ≤ pushW (.put it b) := by
  cases b with
  | none => simp [afterPut, pushW]
  | some r => unfold afterPut; dsimp only; split <;> (simp [pushW]; omega)

theorem countP_lt {l fin : List Nat} {i : Nat} (h1 : i ∈ l) (h2 : i ∉ fin) :
    l.countP (fun j => decide (j ∉ fin ++ [i])) < l.countP (fun j => decide (j ∉ fin)) := by
  have hle : ∀ m : List Nat, m.countP (fun j => decide (j ∉ fin ++ [i])) ≤ m.countP (fun j => decide (j ∉ fin)) := by
    intro m
    apply List.countP_mono_left
    intro x _ hx
    simp only [List.mem_append, List.mem_singleton, not_or, decide_eq_true_eq] at hx ⊢
    exact hx.1
  induction l with
  | nil => cases h1
  | cons a l ih =>
    rw [List.countP_cons, List.countP_cons]
    rcases List.mem_cons.1 h1 with rfl | h
    · have := hle l
      simp [h2]; simp at this; omega
    · have := ih h
      by_cases e1 : a ∈ fin
      · simp [e1]; simpa using this
      · by_cases e2 : a = i
        · simp [e1, e2]; simp at this; split <;> omega
        · simp [e1, e2]; simpa using this

theorem todo_st {s s' : PW} (A : InvA s) (B : InvB c s) (C : InvC s) {e : Bool} (h : St c s e s') (he : e = true) : todo s' < todo s := by
  unfold todo work trueJobs
  cases h with
  | offer => cases he
  | interject => cases he
  | revoke => cases he
  | @sendClosed r hs hp => rw [hs]; simp only [batchW]; unfold unfin; dsimp only; omega
  | @send r hs _ _ =>
    rw [hs]; simp only [List.map_append, List.sum_append, List.map_cons, List.map_nil, List.sum_cons, List.sum_nil]
    unfold unfin; dsimp only; omega
  | ready wm hw =>
    rw [hw, A.born.2 hw]; simp only [wkW, pushW]; unfold unfin; dsimp only; omega
  | @drop r input hp hi hr =>
    rw [hi]; simp only [List.map_cons, List.sum_cons, batchW]; unfold unfin; dsimp only; omega
  | @take r input hp hi hr =>
    rw [hi, hp]; simp only [List.map_cons, List.sum_cons, batchW, pushW]; unfold unfin; dsimp only; omega
  | @ijLost ij ijIn back p' hp hi hr =>
    rcases hp with ⟨hp, _, rfl⟩ | ⟨r, hp, _, rfl⟩ <;> rw [hi, hp] <;> simp only [List.length_cons, pushW] <;> unfold unfin <;> dsimp only <;> omega
  | @ijSched ij ijIn back hp hi hr =>
    rcases hp with ⟨hp, rfl⟩ | ⟨r, hp, rfl⟩ <;> rw [hi, hp] <;> simp only [List.length_cons, pushW] <;> unfold unfin <;> dsimp only <;> omega
  | stop hp hr => rw [hp]; simp only [pushW]; unfold unfin; dsimp only; omega
  | record hp hh => rw [hp]; simp only [pushW, List.length_cons]; unfold unfin; dsimp only; omega
  | stale hp _ => rw [hp]; simp only [pushW, List.length_cons]; unfold unfin; dsimp only; omega
  | noRecord hp => rw [hp]; simp only [pushW, List.length_cons]; unfold unfin; dsimp only; omega
  | batchEnd hp => rw [hp]; simp only [pushW, List.length_nil]; unfold unfin; dsimp only; omega
  | noInter hp _ => rw [hp]; simp only [pushW, List.length_nil]; unfold unfin; dsimp only; omega
  | @acquire it back hp _ => rw [hp]; cases back <;> simp only [pushW] <;> unfold unfin <;> dsimp only <;> omega
  | @poolAdd it back hp =>
    rw [hp]; cases back <;> simp only [pushW, List.length_append, List.length_cons, List.length_nil] <;> unfold unfin <;> dsimp only <;> omega
  | @putEv it back hp _ _ =>
    have := afterPut_w it back
    rw [hp]; simp only [List.length_append, List.length_cons, List.length_nil]; unfold unfin; dsimp only; omega
  | @putIj it back hp _ _ =>
    have := afterPut_w it back
    rw [hp]; simp only [List.length_append, List.length_cons, List.length_nil]; unfold unfin; dsimp only; omega
  | @refuse it buf hb hr => rw [hb]; simp only [List.length_cons]; unfold unfin; dsimp only; omega
  | @give it buf k hb hr hk => rw [hb]; simp only [List.length_cons]; unfold unfin; dsimp only; omega
  | handle hw hq => rw [hw, hq]; simp only [List.length_cons, wkW]; unfold unfin; dsimp only; omega
  | handleIj hw hq => rw [hw, hq]; simp only [List.length_cons, wkW]; unfold unfin; dsimp only; omega
  | @jobDone it jobs hj hw hs =>
    have hm : it ∈ s.pend := by
      rcases B.j1 it (by rw [hj]; simp) with h | h
      · exact h
      · rw [h] at hw; cases hw
    have hl := List.length_erase_of_mem hm
    have hpos := List.length_pos_of_mem hm
    rw [hj]; simp only [List.length_cons, List.countP_cons, hl]; unfold unfin; simp only [List.countP_append]; simp
    have hk : (if it.id ∈ s.fin then 0 else 1 : Nat) ≤ 1 := by split <;> omega
    omega
  | jobMore hj hw => rw [hj]; simp only [List.length_cons, List.countP_cons]; unfold unfin; simp; omega
  | gotEv hw _ _ => rw [hw]; simp only [wkW]; unfold unfin; dsimp only; omega
  | gotIj hw _ _ => rw [hw]; simp only [wkW]; unfold unfin; dsimp only; omega
  | gotNil hw _ _ => rw [hw]; simp only [wkW]; unfold unfin; dsimp only; omega
  | @retDone it hw hj hs =>
    have hc : [it.id].countP (fun i => decide (i ∉ s.fin)) ≤ 1 := List.countP_le_length
    rw [hw]; simp only [wkW]; unfold unfin; simp only [List.countP_append]; omega
  | retMore hw => rw [hw]; simp only [wkW, List.length_append, List.length_cons, List.length_nil]; unfold unfin; dsimp only; omega
  | async b hm hj => subst he; simp only [List.length_append, List.countP_append]; unfold unfin; simp; omega
  | @finalize i hd hf =>
    have : unfin { s with fin := s.fin ++ [i], waiter := s.waiter - 1 } < unfin s := by
      unfold unfin
      dsimp only
      exact countP_lt hd hf
    dsimp only
    omega
  | root hr => unfold unfin; dsimp only; omega
  | stopSend hp hw =>
    have hn : s.waiting = false := by
      by_contra h
      have := C.ph (.inl (by simpa using h))
      rw [hp] at this; cases this
    rw [hp, hn]; simp only [pushW]; unfold unfin; simp; omega
  | waited hw hz =>
    rw [hw, C.one hw]; unfold unfin; simp
  | finish hs hw hp =>
    rw [hp, hw, hs]; simp only [pushW, wkW]; unfold unfin; simp; omega

theorem todo_lt {s s' : PW} {l : Label} (hr : Reach c s) (h : step c s l = some s') (hi : internal l = true) : todo s' < todo s :=
  todo_st (invA_reach hr) (invB_reach hr) (invC_reach hr) (st_of_step h) hi

theorem reach_run {s s' : PW} {ls : List Label} (hr : Reach c s) (h : run c s ls = some s') : Reach c s' := by
  induction ls generalizing s with
  | nil => cases h; exact hr
  | cons l ls ih =>
    simp only [run, Option.bind_eq_some_iff] at h
    obtain ⟨t, h1, h2⟩ := h
    exact ih (.step l hr h1) h2

/-- The worker's own steps come to an end. -/
theorem run_bound {s s' : PW} {ls : List Label} (hr : Reach c s) (h : run c s ls = some s') (hi : ∀ l ∈ ls, internal l = true) :
    (ls.length : Int) + todo s' ≤ todo s := by
  induction ls generalizing s with
  | nil => cases h; simp
  | cons l ls ih =>
    simp only [run, Option.bind_eq_some_iff] at h
    obtain ⟨t, h1, h2⟩ := h
    have k1 := todo_lt hr h1 (hi l (by simp))
    have k2 := ih (.step l hr h1) h2 (fun x hx => hi x (by simp [hx]))
    rw [List.length_cons]; push_cast; omega

/-- No step of the worker is possible. -/
def Quiet (c : Cfg) (s : PW) : Prop := ∀ l, internal l = true → step c s l = none

/-- Every state can be continued to a quiet one. -/
theorem reaches_quiet {s : PW} (hr : Reach c s) : ∃ ls s', run c s ls = some s' ∧ (∀ l ∈ ls, internal l = true) ∧ Quiet c s' := by
  by_cases hq : Quiet c s
  · exact ⟨[], s, rfl, by simp, hq⟩
  · unfold Quiet at hq
    push Not at hq
    obtain ⟨l, h1, h2⟩ := hq
    obtain ⟨t, ht⟩ := Option.ne_none_iff_exists'.1 h2
    have hlt := todo_lt hr ht h1
    have hr' : Reach c t := .step l hr ht
    have hn := todo_nonneg (invB_reach hr')
    obtain ⟨ls, s', k1, k2, k3⟩ := reaches_quiet hr'
    refine ⟨l :: ls, s', ?_, ?_, k3⟩
    · simp only [run, ht, Option.bind_some]; exact k1
    · intro x hx
      rcases List.mem_cons.1 hx with rfl | h
      · exact h1
      · exact k2 x h
termination_by (todo s).toNat
decreasing_by omega

/-! ### Quiet states -/

theorem quiet_wk {s : PW} (hr : Reach c s) (hq : Quiet c s) : s.wk = .idle ∨ s.wk = .stopped := by
  have A := invA_reach hr
  have B := invB_reach hr
  cases hw : s.wk with
  | boot => have := hq (.ready 0) rfl; simp [step, hw] at this
  | idle => exact .inl rfl
  | stopped => exact .inr rfl
  | run it => have := hq (.ret false) rfl; simp [step, hw] at this
  | assign it =>
    exfalso
    have hl : it ∈ live s := by unfold live; rw [hw]; simp [wkIt]
    have hs : s.slots ≠ 0 := by
      rw [B.slots]; exact Nat.pos_iff_ne_zero.1 (List.length_pos_of_mem hl)
    have hg := hq .got rfl
    simp only [step, hw] at hg
    cases hp : s.prod it.id with
    | some b =>
      cases b with
      | true => simp only [hp] at hg; split at hg <;> cases hg
      | false => simp only [hp, if_neg hs] at hg; cases hg
    | none =>
      -- the event is still in the pool's buffer
      have hacc := B.sub it hl
      obtain ⟨pre, k1, k2⟩ := A.dec
      have hm : it ∈ undecided s := by
        have h1 : it ∈ pre ++ undecided s := by rw [← k1]; exact accepted_sched A hacc
        rcases List.mem_append.1 h1 with h | h
        · exact absurd hp ((k2 it.id).2 (List.mem_map.2 ⟨it, h, rfl⟩))
        · exact h
      have hb : it ∈ s.buf := by
        unfold undecided at hm
        rcases List.mem_append.1 hm with h | h
        · rcases List.mem_append.1 h with h | h
          · exact h
          · -- twice among the events with a slot
            exfalso
            have h1 := B.cnt it.id
            have h2 := cnt_le_one A it.id
            have h3 := ids_pos h
            have h4 : ids (live s) it.id = ids (addIt s.push) it.id + ids (putIt s.push) it.id + ids s.evq it.id + ids s.ijq it.id + ids (wkIt s.wk) it.id + ids s.pend it.id := by
              unfold live; simp only [ids_append]
            rw [hw] at h4
            have h5 : ids (wkIt (.assign it)) it.id = 1 := by simp [wkIt, ids]
            omega
        · exfalso
          have h1 : (s.sched.map It.id).Nodup := by rw [A.ids]; exact List.nodup_range
          rw [A.acc, List.map_append, List.nodup_append] at h1
          exact h1.2.2 it.id (List.mem_map.2 ⟨it, hacc, rfl⟩) it.id (List.mem_map.2 ⟨it, h, rfl⟩) rfl
      have hga := hq (.assign false) rfl
      simp only [step] at hga
      split at hga
      · split at hga <;> cases hga
      · rename_i h; rw [h] at hb; cases hb

theorem quiet_empty {s : PW} (hr : Reach c s) (hq : Quiet c s) (hw : s.wk = .idle) :
    s.evq = [] ∧ s.ijq = [] ∧ s.jobs = [] ∧ s.pend = [] ∧ s.buf = [] := by
  have B := invB_reach hr
  have h1 : s.evq = [] := by
    have := hq .handle rfl
    simp only [step, hw] at this
    cases he : s.evq with
    | nil => rfl
    | cons a l => simp [he] at this
  have h2 : s.ijq = [] := by
    have := hq .handleIj rfl
    simp only [step, hw] at this
    cases he : s.ijq with
    | nil => rfl
    | cons a l => simp [he] at this
  have h3 : s.jobs = [] := by
    have := hq .job rfl
    cases he : s.jobs with
    | nil => rfl
    | cons a l =>
      exfalso
      obtain ⟨it, b⟩ := a
      simp only [step, he, hw, takesJobs] at this
      cases b with
      | false => simp at this
      | true =>
        have hm : it ∈ s.pend := by
          rcases B.j1 it (by rw [he]; simp) with h | h
          · exact h
          · rw [h] at hw; cases hw
        have hs : s.slots ≠ 0 := by
          rw [B.slots]
          exact Nat.pos_iff_ne_zero.1 (List.length_pos_of_mem (show it ∈ live s by unfold live; simp [hm]))
        simp [completeEv, hs] at this
  have h4 : s.pend = [] := by
    cases he : s.pend with
    | nil => rfl
    | cons it l =>
      exfalso
      have := hq (.async it true) rfl
      simp [step, he, h3] at this
  have h5 : s.buf = [] := by
    cases he : s.buf with
    | nil => rfl
    | cons it l =>
      exfalso
      have := hq (.assign false) rfl
      simp only [step, he] at this
      split at this <;> cases this
  exact ⟨h1, h2, h3, h4, h5⟩

/-- A quiet worker either waits for input with nothing left to do, or it was revoked and has finished. -/
theorem quiet_cases {s : PW} (hc1 : 1 ≤ c.maxPending) (hc2 : 1 ≤ c.ecap) (hr : Reach c s) (hq : Quiet c s) :
    (s.revoked = false ∧ s.push = .idle ∧ s.wk = .idle ∧ s.input = [] ∧ s.sending = none ∧ s.ijIn = [] ∧ live s = []) ∨
    (s.revoked = true ∧ s.push = .closed ∧ s.wk = .stopped ∧ s.sending = none) := by
  have A := invA_reach hr
  have B := invB_reach hr
  have C := invC_reach hr
  rcases quiet_wk hr hq with hw | hw
  · obtain ⟨h1, h2, h3, h4, h5⟩ := quiet_empty hr hq hw
    cases hp : s.push with
    | unborn => rw [A.born.1 hp] at hw; cases hw
    | closed => rw [C.st.1 hp] at hw; cases hw
    | idle =>
      have hi : s.input = [] := by
        cases he : s.input with
        | nil => rfl
        | cons a l =>
          have := hq .take rfl
          simp only [step, hp, he] at this
          split at this <;> cases this
      have hj : s.ijIn = [] := by
        cases he : s.ijIn with
        | nil => rfl
        | cons a l =>
          have := hq .takeIj rfl
          simp only [step, hp, he] at this
          cases this
      have hv : s.revoked = false := by
        by_contra h
        have := hq .stop rfl
        simp [step, hp, h] at this
      have hs : s.sending = none := by
        cases he : s.sending with
        | none => rfl
        | some a =>
          have := hq .send rfl
          simp [step, hp, he, hi] at this
      refine .inl ⟨hv, rfl, hw, hi, hs, hj, ?_⟩
      unfold live; rw [hp, h1, h2, hw, h4]; rfl
    | next r =>
      exfalso
      have := hq .record rfl
      simp only [step, hp] at this
      cases r with
      | nil => cases this
      | cons a l =>
        cases a with
        | none => cases this
        | some o => dsimp only at this; split at this <;> cases this
    | slot it b =>
      exfalso
      have := hq .acquire rfl
      simp only [step, hp] at this
      have hl : live s = [] := by unfold live; rw [hp, h1, h2, hw, h4]; rfl
      have : s.slots < c.maxPending := by rw [B.slots, hl]; exact hc1
      simp_all
    | add it b =>
      exfalso
      have := hq .poolAdd rfl
      simp [step, hp] at this
    | put it b =>
      exfalso
      have := hq .put rfl
      simp only [step, hp, h1, h2] at this
      split at this
      · rw [if_pos (show ([] : List It).length < c.ecap from hc2)] at this; cases this
      · simp at this
    | inter r =>
      exfalso
      have := hq .inter rfl
      simp only [step, hp] at this
      cases he : s.ijIn <;> simp [he] at this
    | stop =>
      exfalso
      have := hq .stopSend rfl
      simp [step, hp, hw] at this
    | wait =>
      exfalso
      rcases invW_reach hr hp with hx | hx
      · have hroots : s.roots = 0 := by
          by_contra h
          have := hq .root rfl
          simp [step, h] at this
        have hcnt : s.sched.countP (counts s) = 0 := by
          rw [List.countP_eq_zero]
          intro it hit hct
          simp only [counts, decide_eq_true_eq] at hct
          obtain ⟨hc1, hc2⟩ := hct
          obtain ⟨pre, k1, k2⟩ := A.dec
          have hu : undecided s = [] := by unfold undecided; rw [h5, hp]; rfl
          rw [hu, List.append_nil] at k1
          have hne := (k2 it.id).2 (List.mem_map.2 ⟨it, k1 ▸ hit, rfl⟩)
          have hacc : it ∈ s.accepted := by
            have := A.acc; rw [hp] at this; simp [slotIt] at this; rw [← this]; exact hit
          have hl : live s = [] := by unfold live; rw [hp, h1, h2, hw, h4]; rfl
          have hrel := B.cnt it.id
          have hpos := ids_pos hacc
          rw [hl, ids_nil] at hrel
          have hin : it.id ∈ s.released := List.count_pos_iff.1 (by omega)
          rcases B.rel _ hin with h | h
          · have := hq (.finalize it.id) rfl
            simp [step, h, hc1] at this
          · exact hc2 h
        have hwt : s.waiter = 0 := by
          have := C.w
          rw [hp, hcnt, hroots] at this
          simpa [rest] using this
        have := hq .waited rfl
        simp [step, hx, hwt] at this
      · have := hq .finish rfl
        simp [step, hx, hw, hp] at this
  · have hp := C.st.2 hw
    refine .inr ⟨C.rv (by rw [hp]; rfl), hp, hw, ?_⟩
    cases he : s.sending with
    | none => rfl
    | some a =>
      have := hq .send rfl
      simp [step, hp, he] at this

/-! ### Interjections -/

/-- The interjections on their way. -/
def ijPipe (s : PW) : List Nat :=
  ((slotIt s.push ++ addIt s.push ++ putIt s.push ++ s.ijq ++ wkIt s.wk).filter (·.off.isNone)).map It.tag

structure InvE (s : PW) : Prop where
  cnt : ∀ t, s.ijIn.count t + (ijPipe s).count t + s.answered.count t + s.lost.count t = if t < s.nextTag then 1 else 0
  lost : s.lost ≠ [] → s.revoked = true

theorem invE_init : InvE PW.init := by
  constructor <;> simp [PW.init, ijPipe, slotIt, addIt, putIt, wkIt]

theorem invE_frame {s s' : PW} (I : InvE s) (h1 : s'.ijIn = s.ijIn) (h2 : ijPipe s' = ijPipe s) (h3 : s'.answered = s.answered)
    (h4 : s'.lost = s.lost) (h5 : s'.nextTag = s.nextTag) (h6 : s.revoked = true → s'.revoked = true) : InvE s' :=
  { cnt := by rw [h1, h2, h3, h4, h5]; exact I.cnt
    lost := by rw [h4]; exact fun h => h6 (I.lost h) }

/-- The count of one interjection. -/
def tg (l : List It) (t : Nat) : Nat := ((l.filter (·.off.isNone)).map It.tag).count t

theorem tg_append (l m : List It) (t : Nat) : tg (l ++ m) t = tg l t + tg m t := by simp [tg]
theorem tg_nil (t : Nat) : tg [] t = 0 := rfl

theorem ijPipe_count (s : PW) (t : Nat) :
    (ijPipe s).count t = tg (slotIt s.push) t + tg (addIt s.push) t + tg (putIt s.push) t + tg s.ijq t + tg (wkIt s.wk) t := by
  show tg _ t = _
  simp only [tg_append]

theorem tagOf_count (it : It) (t : Nat) : (tagOf it).count t = tg [it] t := by
  unfold tagOf tg
  cases h : it.off <;> simp [h]

theorem invE_step {s s' : PW} (A : InvA s) (B : InvB c s) (I : InvE s) {e : Bool} (h : St c s e s') : InvE s' := by
  have key := fun t => ijPipe_count s t
  cases h with
  | interject hi hp =>
    refine { I with cnt := fun t => ?_ }
    have := I.cnt t
    rw [hi] at this
    show [s.nextTag].count t + (ijPipe s).count t + s.answered.count t + s.lost.count t = if t < s.nextTag + 1 then 1 else 0
    rw [List.count_singleton]
    simp only [List.count_nil] at this
    by_cases h1 : s.nextTag = t
    · subst h1; simp at this ⊢; omega
    · have : (t < s.nextTag + 1) = (t < s.nextTag) := by apply propext; omega
      simp only [beq_iff_eq, h1, if_false, this]; omega
  | ready wm hw =>
    refine invE_frame I rfl ?_ rfl rfl rfl id
    unfold ijPipe; rw [hw, A.born.2 hw]; rfl
  | revoke => exact { I with lost := fun _ => rfl }
  | take hp hi hr =>
    refine invE_frame I rfl ?_ rfl rfl rfl id
    unfold ijPipe; rw [hp]; rfl
  | @ijLost ij ijIn back p' hp hi hr =>
    refine { cnt := fun t => ?_, lost := fun _ => hr }
    have h1 := I.cnt t
    have h2 : (ijPipe { s with ijIn := ijIn, lost := s.lost ++ [ij], push := p' }).count t = (ijPipe s).count t := by
      rw [ijPipe_count, ijPipe_count]
      rcases hp with ⟨hp, _, rfl⟩ | ⟨r, hp, _, rfl⟩ <;> rw [hp] <;> rfl
    rw [hi, List.count_cons] at h1
    rw [h2]
    simp only [List.count_append, List.count_singleton]
    omega
  | @ijSched ij ijIn back hp hi hr =>
    refine { cnt := fun t => ?_, lost := I.lost }
    have h1 := I.cnt t
    have h2 := ijPipe_count { s with
        ijIn := ijIn, waiter := s.waiter + 1, nextId := s.nextId + 1, sched := s.sched ++ [⟨s.nextId, none, ij⟩]
        push := .slot ⟨s.nextId, none, ij⟩ back } t
    have h3 := key t
    have h4 : tg (slotIt s.push) t = 0 ∧ tg (addIt s.push) t = 0 ∧ tg (putIt s.push) t = 0 := by
      rcases hp with ⟨hp, _⟩ | ⟨r, hp, _⟩ <;> rw [hp] <;> exact ⟨rfl, rfl, rfl⟩
    have h5 : tg (slotIt (.slot ⟨s.nextId, none, ij⟩ back)) t = if ij = t then 1 else 0 := by
      simp [slotIt, tg, List.count_singleton]
    have h6 : tg (addIt (.slot ⟨s.nextId, none, ij⟩ back)) t = 0 := rfl
    have h7 : tg (putIt (.slot ⟨s.nextId, none, ij⟩ back)) t = 0 := rfl
    rw [hi, List.count_cons] at h1
    rw [h2]
    dsimp only
    rw [h5, h6, h7]
    simp only [beq_iff_eq] at h1
    omega
  | stop hp hr =>
    refine invE_frame I rfl ?_ rfl rfl rfl id
    unfold ijPipe; rw [hp]; rfl
  | record hp hh =>
    refine invE_frame I rfl ?_ rfl rfl rfl id
    unfold ijPipe; rw [hp]; simp [slotIt, addIt, putIt]
  | stale hp _ =>
    refine invE_frame I rfl ?_ rfl rfl rfl id
    unfold ijPipe; rw [hp]; rfl
  | noRecord hp =>
    refine invE_frame I rfl ?_ rfl rfl rfl id
    unfold ijPipe; rw [hp]; rfl
  | batchEnd hp =>
    refine invE_frame I rfl ?_ rfl rfl rfl id
    unfold ijPipe; rw [hp]; rfl
  | noInter hp _ =>
    refine invE_frame I rfl ?_ rfl rfl rfl id
    unfold ijPipe; rw [hp]; rfl
  | acquire hp _ =>
    refine invE_frame I rfl ?_ rfl rfl rfl id
    unfold ijPipe; rw [hp]; simp [slotIt, addIt, putIt]
  | poolAdd hp =>
    refine invE_frame I rfl ?_ rfl rfl rfl id
    unfold ijPipe; rw [hp]; simp [slotIt, addIt, putIt]
  | @putEv it back hp ho _ =>
    obtain ⟨a1, a2, a3, a4, a5⟩ := afterPut_cases it back
    have hp1 : putIt (Push.put it back) = [it] := rfl
    have hp2 : addIt (Push.put it back) = [] := rfl
    have hp3 : slotIt (Push.put it back) = [] := rfl
    have ho' : it.off.isNone = false := by cases h : it.off <;> simp_all
    refine invE_frame I rfl ?_ rfl rfl rfl id
    unfold ijPipe; dsimp only; rw [hp, a1, a2, a3, hp1, hp2, hp3]; simp [ho']
  | @putIj it back hp ho _ =>
    obtain ⟨a1, a2, a3, a4, a5⟩ := afterPut_cases it back
    have hp1 : putIt (Push.put it back) = [it] := rfl
    have hp2 : addIt (Push.put it back) = [] := rfl
    have hp3 : slotIt (Push.put it back) = [] := rfl
    refine { cnt := fun t => ?_, lost := I.lost }
    have h1 := I.cnt t
    have h3 := key t
    rw [hp, hp1, hp2, hp3, tg_nil] at h3
    rw [ijPipe_count]
    dsimp only
    rw [a1, a2, a3, tg_append, tg_nil]
    omega
  | @handle it evq hw he =>
    have ho := B.evs it (by rw [he]; simp)
    have ho' : it.off.isNone = false := by cases h : it.off <;> simp_all
    refine invE_frame I rfl ?_ rfl rfl rfl id
    unfold ijPipe; rw [hw]; simp [wkIt, ho']
  | @handleIj it ijq hw he =>
    refine { cnt := fun t => ?_, lost := I.lost }
    have h1 := I.cnt t
    have h3 := key t
    have hk : s.ijq = [it] ++ ijq := he
    have hw1 : tg (wkIt .idle) t = 0 := rfl
    have hw2 : wkIt (.assign it) = [it] := rfl
    rw [hk, tg_append, hw, hw1] at h3
    rw [ijPipe_count]
    dsimp only
    rw [hw2]
    omega
  | @gotEv it off hw _ _ =>
    refine invE_frame I rfl ?_ rfl rfl rfl id
    unfold ijPipe; rw [hw]; rfl
  | @gotIj it hw _ _ =>
    refine invE_frame I rfl ?_ rfl rfl rfl id
    unfold ijPipe; rw [hw]; rfl
  | @gotNil it hw hp _ =>
    refine { cnt := fun t => ?_, lost := fun _ => A.rev _ hp }
    have h1 := I.cnt t
    have h3 := key t
    have hw1 : tg (wkIt .idle) t = 0 := rfl
    have hw2 : wkIt (.assign it) = [it] := rfl
    have hl : (if it.off.isSome then s.lost else s.lost ++ [it.tag]).count t = s.lost.count t + tg [it] t := by
      cases h : it.off <;> simp [h, tg]
    rw [hw, hw2] at h3
    rw [ijPipe_count]
    dsimp only
    rw [hl, hw1]
    omega
  | @retDone it hw _ _ =>
    refine { cnt := fun t => ?_, lost := I.lost }
    have h1 := I.cnt t
    have h3 := key t
    have hw1 : tg (wkIt .idle) t = 0 := rfl
    have hw2 : wkIt (.run it) = [it] := rfl
    rw [hw, hw2] at h3
    rw [ijPipe_count]
    dsimp only
    rw [List.count_append, tagOf_count, hw1]
    omega
  | @retMore it hw =>
    refine { cnt := fun t => ?_, lost := I.lost }
    have h1 := I.cnt t
    have h3 := key t
    have hw1 : tg (wkIt .idle) t = 0 := rfl
    have hw2 : wkIt (.run it) = [it] := rfl
    rw [hw, hw2] at h3
    rw [ijPipe_count]
    dsimp only
    rw [List.count_append, tagOf_count, hw1]
    omega
  | stopSend hp hw =>
    refine invE_frame I rfl ?_ rfl rfl rfl id
    unfold ijPipe; rw [hp]; rfl
  | finish hs hw hp =>
    refine invE_frame I rfl ?_ rfl rfl rfl id
    unfold ijPipe; rw [hp, hw]; rfl
  | _ => exact { I with }

theorem invE_reach {s : PW} (h : Reach c s) : InvE s := by
  induction h with
  | init => exact invE_init
  | step l hr hs ih => exact invE_step (invA_reach hr) (invB_reach hr) ih (st_of_step hs)

end Verif.Worker
