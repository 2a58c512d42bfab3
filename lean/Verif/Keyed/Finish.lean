import Verif.Keyed.Store
/-
Proofs for C112: what was computed can be completed.
-/
namespace Verif.Keyed
open Verif.Scheduler (Job sub scheds upd)
open Verif.Exact

set_option linter.unusedSectionVars false

variable {K σ X : Type} [DecidableEq K] {c : Cfg K σ X} {w w' : W K σ} {sel : K → Bool}

/-- The way of an event through a new scheduler up to its completion. -/
def way (p : Nat) (y : Job K) : List (Scheduler.Label K) := [.call y, .lock p none, .send p, .eval 0, .recv 0, .peek 0, .finish 0]

theorem way_run (c : Scheduler.Config) (hc : 1 ≤ c.concurrency) {p : Nat} (hp : c.concurrency ≤ p) (k : K) :
    ∃ s, Scheduler.run (Scheduler.init c) (way p ⟨k, p, 0⟩) = some s ∧ s.threads 0 = .wAdv 0 ⟨k, p, 0⟩ ∧ s.threads p = .idle ∧ s.closed = false := by
  have h0 : ¬ p = 0 := by omega
  have h0' : ¬ 0 = p := by omega
  have hk : 0 < c.concurrentKeys := by unfold Scheduler.Config.concurrentKeys; split <;> omega
  have hp' : ¬ p < c.concurrency := by omega
  have hc' : 0 < c.concurrency := by omega
  simp [way, Scheduler.run, Scheduler.step, Scheduler.init, Scheduler.State.goto, Scheduler.State.lock, Scheduler.State.send, Scheduler.State.recv, Scheduler.State.peekStep,
    Scheduler.State.setQ, Scheduler.State.lookup, Scheduler.State.poolGet, Scheduler.State.bind, Scheduler.State.add, Scheduler.Queue.tryEnqueue, Scheduler.Queue.tryEnqueue1, Scheduler.Queue.trySend,
    Scheduler.Queue.backfill, Scheduler.Queue.peek, Scheduler.newQueue, upd, h0, h0', hp', hc', Nat.ne_of_gt hk]

theorem reach_inner {w0 : W K σ} {P : W K σ → Act K → Prop} (hP : ∀ w l, P w (.inner l)) : ∀ (ls : List (Scheduler.Label K)) {w : W K σ} {s' : Scheduler.State K}, From c P w0 w →
    (∀ l ∈ ls, (∀ y, l ≠ .call y) ∧ ∀ t, l ≠ .complete t) → Scheduler.run w.sch ls = some s' → From c P w0 { w with sch := s' } := by
  intro ls
  induction ls with
  | nil => intro w s' h _ hr; cases hr; exact h
  | cons l ls ih =>
    intro w s' h hl hr
    simp only [Scheduler.run, Option.bind_eq_some_iff] at hr
    obtain ⟨s1, h1, h2⟩ := hr
    obtain ⟨hl1, hl2⟩ := hl l (by simp)
    have hs : step c w (.inner l) = some { w with sch := s1 } := by
      cases l with
      | call y => exact absurd rfl (hl1 y)
      | complete t => exact absurd rfl (hl2 t)
      | _ => simp only [step, h1, Option.map_some]
    exact ih (w := { w with sch := s1 }) (.step (.inner l) h (hP w l) hs) (fun l' hl' => hl l' (by simp [hl'])) h2

/-- After a start, the next record is done, and the process started again. -/
theorem next_one {w0 : W K σ} (hc : 1 ≤ c.sched.concurrency) (ha : 1 ≤ c.asyncSize) {vis : Nat → List (K × Nat)} {wm : Nat → Nat} (h : From c Open w0 (boot c vis wm)) {p : Nat} (hp : c.sched.concurrency ≤ p)
    {k : K} {x : X} (hx : (c.src p)[wm p]? = some (k, x)) : ∃ vis', From c Open w0 (boot c vis' (upd wm p (wm p + 1))) := by
  -- the end: all is done
  have fin : ∀ w : W K σ, From c Open w0 w → w.ev p = [⟨k, p, 0⟩] → w.base = wm → w.com = (fun _ => 0) → (∃ rs, w.prod p = [(⟨k, p, 0⟩, rs)]) →
      ∃ vis', From c Open w0 (boot c vis' (upd wm p (wm p + 1))) := by
    intro w hw h1 h2 h3 ⟨rs, h4⟩
    obtain ⟨w1, hw1⟩ : ∃ w1, step c w (.commit p 1) = some w1 := by
      simp only [step]
      rw [if_pos ?_]
      · exact ⟨_, rfl⟩
      · rw [h1, h3, h4]; simp
    have hr := From.step (.crash) (.step (.commit p 1) hw trivial hw1) trivial rfl
    have hwm : w1.wm = upd wm p (wm p + 1) := by
      simp only [step] at hw1
      split at hw1
      · cases hw1
        funext q
        show w.base q + upd w.com p (w.com p + 1) q = _
        rw [h2, h3]
        by_cases hq : q = p
        · subst hq; rw [upd_self, upd_self]
        · rw [upd_other _ _ hq, upd_other _ _ hq]; rfl
      · cases hw1
    rw [hwm] at hr
    exact ⟨_, hr⟩
  have h0 : ¬ p < c.sched.concurrency := by omega
  -- the record becomes an event
  obtain ⟨w1, hw1⟩ : ∃ w1, w1 = { (boot c vis wm) with
      evq := upd (fun _ => []) p [⟨k, p, 0⟩], ev := upd (fun _ => []) p [⟨k, p, 0⟩], off := upd (fun _ => 0) 0 (wm p), next := 1 } := ⟨_, rfl⟩
  have r1 : From c Open w0 w1 := by
    refine .step (.arrive p) h trivial ?_
    simp [step, boot, hx, hp, hw1]
  have hv : ∀ w : W K σ, w.off = w1.off → value c w ⟨k, p, 0⟩ = some x := by
    intro w hw
    simp [value, hw, hw1, upd, hx]
  have hth : w1.sch.threads p = .idle := by simp [hw1, boot, Scheduler.init, h0]
  have hq : w1.evq p = [⟨k, p, 0⟩] := by simp [hw1, upd]
  have hcl : w1.sch.closed = false := by simp [hw1, boot, Scheduler.init]
  cases hs : c.async k x with
  | false =>
    refine fin (work c { w1 with evq := upd w1.evq p [] } ⟨k, p, 0⟩ x) (.step (.handle p) r1 hcl ?_) (by simp [work, hw1, upd]) (by simp [work, hw1, boot]) (by simp [work, hw1, boot])
      ⟨_, by simp [work, hw1, boot, upd]; rfl⟩
    simp only [step, hth, hq, hv w1 rfl, hs]
    rfl
  | true =>
    obtain ⟨s, hr, ht0, htp, -⟩ := way_run c.sched hc hp k
    simp only [way, Scheduler.run, Option.bind_eq_some_iff] at hr
    obtain ⟨s1, hs1, hr⟩ := hr
    have hs1' : Scheduler.step w1.sch (.call ⟨k, p, 0⟩) = some s1 := by rw [hw1]; exact hs1
    have r2 : From c Open w0 { w1 with sch := s1, evq := upd w1.evq p [] } := by
      refine .step (.handle p) r1 hcl ?_
      simp only [step, hth, hq, hv w1 rfl, hs, hcl, hs1']
      rfl
    have r3 := reach_inner (s' := s) (fun _ _ => trivial) [.lock p none, .send p, .eval 0, .recv 0, .peek 0, .finish 0] r2 (by simp)
      (by simp only [Scheduler.run, Option.bind_eq_some_iff]; exact hr)
    have hjobs : w1.jobs = fun _ => [] := by simp [hw1, boot]
    obtain ⟨s4, hs4, hi4⟩ : ∃ s4, Scheduler.step s (.complete 0) = some s4 ∧ s4.threads p = .idle := by
      simp only [Scheduler.step, ht0]
      refine ⟨_, rfl, ?_⟩
      show upd s.threads 0 _ p = _
      rw [upd_other _ _ (by omega), htp]
    have r4 : From c Open w0 { w1 with sch := s4, evq := upd w1.evq p [], jobs := upd w1.jobs p [⟨k, p, 0⟩] } := by
      refine .step (.inner (.complete 0)) r3 trivial ?_
      simp only [step, ht0, hjobs]
      rw [if_pos (by simpa using (by omega : 0 < c.asyncSize)), hs4]
      rfl
    refine fin (work c { w1 with sch := s4, evq := upd w1.evq p [], jobs := upd (upd w1.jobs p [⟨k, p, 0⟩]) p [] } ⟨k, p, 0⟩ x) (.step (.job p) r4 trivial ?_)
      (by simp [work, hw1, upd]) (by simp [work, hw1, boot]) (by simp [work, hw1, boot]) ⟨_, by simp [work, hw1, boot, upd]; rfl⟩
    have hv4 := hv { w1 with sch := s4, evq := upd w1.evq p [], jobs := upd w1.jobs p [⟨k, p, 0⟩] } rfl
    simp only [step, hi4, upd_self, hv4]

/-- From every state, all records of a partition can still be done. -/
theorem can_finish (hc : 1 ≤ c.sched.concurrency) (ha : 1 ≤ c.asyncSize) {p : Nat} (hp : c.sched.concurrency ≤ p) (hle : w.wm p ≤ (c.src p).length) :
    ∃ w', From c Open w w' ∧ w'.wm p = (c.src p).length := by
  have key : ∀ n (vis : Nat → List (K × Nat)) (wm : Nat → Nat), From c Open w (boot c vis wm) → wm p + n = (c.src p).length → ∃ w', From c Open w w' ∧ w'.wm p = (c.src p).length := by
    intro n
    induction n with
    | zero => intro vis wm h hn; exact ⟨_, h, by simpa [boot, W.wm] using hn⟩
    | succ n ih =>
      intro vis wm h hn
      have hx : (c.src p)[wm p]? = some ((c.src p)[wm p]'(by omega)) := List.getElem?_eq_getElem _
      obtain ⟨vis', h'⟩ := next_one hc ha h hp (k := ((c.src p)[wm p]'(by omega)).1) (x := ((c.src p)[wm p]'(by omega)).2) hx
      exact ih vis' _ h' (by rw [upd_self]; omega)
  exact key ((c.src p).length - w.wm p) w.vis w.wm (.step .crash .init trivial rfl) (by omega)

theorem From.trans {P : W K σ → Act K → Prop} {w0 : W K σ} (h : From c P w0 w) (h' : From c P w w') : From c P w0 w' := by
  induction h' with
  | init => exact h
  | step x _ hP hx ih => exact .step x ih hP hx

theorem wm_le (hu : ∀ k x, c.async k x = sel k) (h : Reach c Open w) (p : Nat) : w.wm p ≤ (c.src p).length := by
  induction h with
  | init => simp [init, boot, W.wm]
  | @step w w' x hr ho hx ih =>
    have I := inv_reach hu (.step x hr ho hx)
    have I0 := inv_reach hu hr
    by_cases hcr : x = .crash
    · subst hcr; cases hx; simpa [boot, W.wm] using ih
    · by_cases h0 : w'.com p = 0
      · -- nothing new
        have hb : w'.base = w.base := by
          cases x with
          | crash => exact absurd rfl hcr
          | arrive q =>
            simp only [step] at hx
            split at hx
            · split at hx
              · cases hx; rfl
              · cases hx
            · cases hx
          | handle q =>
            simp only [step] at hx
            split at hx
            · split at hx
              · split at hx
                · split at hx
                  · cases hx; rfl
                  · simp only [Option.map_eq_some_iff] at hx
                    obtain ⟨sch, -, rfl⟩ := hx; rfl
                · cases hx; rfl
              · cases hx
            · cases hx
          | job q =>
            simp only [step] at hx
            split at hx
            · split at hx
              · cases hx; rfl
              · cases hx
            · cases hx
          | commit q m =>
            simp only [step] at hx
            split at hx
            · cases hx; rfl
            · cases hx
          | inner l =>
            cases l with
            | call x => simp [step] at hx
            | complete t =>
              simp only [step] at hx
              split at hx
              · split at hx
                · simp only [Option.map_eq_some_iff] at hx
                  obtain ⟨sch, -, rfl⟩ := hx; rfl
                · cases hx
              · cases hx
            | _ =>
              simp only [step, Option.map_eq_some_iff] at hx
              obtain ⟨sch, -, rfl⟩ := hx; rfl
        unfold W.wm at ih ⊢
        rw [hb, h0]; omega
      · have hlt : w'.com p - 1 < (w'.ev p).length := by have := I.com p; omega
        obtain ⟨-, -, -, x', hx'⟩ := I.evs p (w'.com p - 1) _ (List.getElem?_eq_getElem hlt)
        have := (List.getElem?_eq_some_iff.mp hx').1
        unfold W.wm; omega

end Verif.Keyed
