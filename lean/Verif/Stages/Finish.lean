import Verif.Stages.Store
import Verif.Keyed.Finish
/-
Proofs for C113: what was computed can be completed.
-/
namespace Verif.Stages
open Verif.Scheduler (Job sub scheds upd)
open Verif.Exact
open Verif.Keyed (upd_self upd_other way way_run)

set_option linter.unusedSectionVars false

variable {K σ X : Type} [DecidableEq K] {c : Cfg K σ X} {w w' : W K σ} {a : K → Nat}

theorem From.trans {P : W K σ → Act K → Prop} {w0 : W K σ} (h : From c P w0 w) (h' : From c P w w') : From c P w0 w' := by
  induction h' with
  | init => exact h
  | step x _ hP hx ih => exact .step x ih hP hx

theorem reach_inner {w0 : W K σ} {P : W K σ → Act K → Prop} {i : Nat} (hP : ∀ w l, P w (.inner i l)) : ∀ (ls : List (Scheduler.Label K)) {w : W K σ} {s s' : Scheduler.State K},
    From c P w0 { w with sch := upd w.sch i s } →
    (∀ l ∈ ls, (∀ y, l ≠ .call y) ∧ ∀ t, l ≠ .complete t) → Scheduler.run s ls = some s' → From c P w0 { w with sch := upd w.sch i s' } := by
  intro ls
  induction ls with
  | nil => intro w s s' h _ hr; cases hr; exact h
  | cons l ls ih =>
    intro w s s' h hl hr
    simp only [Scheduler.run, Option.bind_eq_some_iff] at hr
    obtain ⟨s1, h1, h2⟩ := hr
    obtain ⟨hl1, hl2⟩ := hl l (by simp)
    have hu : upd (upd w.sch i s) i s1 = upd w.sch i s1 := by
      funext j
      by_cases hj : j = i
      · subst hj; rw [upd_self, upd_self]
      · rw [upd_other _ _ hj, upd_other _ _ hj, upd_other _ _ hj]
    have hs : step c { w with sch := upd w.sch i s } (.inner i l) = some { w with sch := upd w.sch i s1 } := by
      cases l with
      | call y => exact absurd rfl (hl1 y)
      | complete t => exact absurd rfl (hl2 t)
      | _ => simp only [step, upd_self, h1, Option.map_some, hu]
    exact ih (w := w) (s := s1) (.step (.inner i l) h (hP _ l) hs) (fun l' hl' => hl l' (by simp [hl'])) h2

/-- The state of a new process that has one event, which has come to a place. -/
structure At (c : Cfg K σ X) (wm : Nat → Nat) (p : Nat) (k : K) (x : X) (i : Nat) (w : W K σ) : Prop where
  ev : w.ev p = [⟨k, p, 0⟩]
  base : w.base = wm
  com : w.com = fun _ => 0
  jobs : w.jobs p = []
  val : value c w ⟨k, p, 0⟩ = some x
  new : ∀ j, i ≤ j → w.sch j = Scheduler.init (c.sched j)
  idle : ∀ j, (w.sch j).threads p = .idle
  opn : ∀ j, (w.sch j).closed = false

theorem work_at {wm : Nat → Nat} {p : Nat} {k : K} {x : X} {i j : Nat} (h : At c wm p k x i w) : At c wm p k x i (work c w j ⟨k, p, 0⟩ x) :=
  ⟨h.ev, h.base, h.com, h.jobs, h.val, h.new, h.idle, h.opn⟩

/-- From a place the event goes on to the end. -/
theorem to_end {w0 : W K σ} {wm : Nat → Nat} {p : Nat} {k : K} {x : X} (hc : ∀ i, 1 ≤ (c.sched i).concurrency ∧ (c.sched i).concurrency ≤ p) (ha : 1 ≤ c.asyncSize) :
    ∀ d i w1, i + d = c.n k → At c wm p k x i w1 → (∀ w2, pass c w1 i ⟨k, p, 0⟩ = some w2 → From c Open w0 w2) →
      ∃ w3, From c Open w0 w3 ∧ w3.ev p = [⟨k, p, 0⟩] ∧ w3.base = wm ∧ w3.com = (fun _ => 0) ∧ (⟨k, p, 0⟩ : Job K) ∈ w3.dn p := by
  intro d
  induction d with
  | zero =>
    intro i w1 hi h hr
    refine ⟨finish w1 ⟨k, p, 0⟩, hr _ ?_, h.ev, h.base, h.com, ?_⟩
    · unfold pass
      rw [if_neg (by show ¬ i < c.n k; omega)]
    · show _ ∈ upd w1.dn p _ p
      rw [upd_self]; simp
  | succ d ih =>
    intro i w1 hi h hr
    obtain ⟨s, hr', ht0, htp, hcl⟩ := way_run (c.sched i) (hc i).1 (hc i).2 k
    simp only [way, Scheduler.run, Option.bind_eq_some_iff] at hr'
    obtain ⟨s1, hs1, hr'⟩ := hr'
    have r2 : From c Open w0 { w1 with sch := upd w1.sch i s1 } := by
      apply hr
      unfold pass
      rw [if_pos (by show i < c.n k; omega), h.opn i, if_neg (by simp), h.new i (Nat.le_refl _), hs1]
      rfl
    have r3 := reach_inner (s' := s) (fun _ _ => trivial) [.lock p none, .send p, .eval 0, .recv 0, .peek 0, .finish 0] r2 (by simp)
      (by simp only [Scheduler.run, Option.bind_eq_some_iff]; exact hr')
    obtain ⟨s4, hs4, hi4, hc4⟩ : ∃ s4, Scheduler.step s (.complete 0) = some s4 ∧ s4.threads p = .idle ∧ s4.closed = s.closed := by
      simp only [Scheduler.step, ht0]
      refine ⟨_, rfl, ?_, rfl⟩
      show upd s.threads 0 _ p = _
      have := hc i
      rw [upd_other _ _ (by omega), htp]
    have r4 : From c Open w0 { w1 with sch := upd w1.sch i s4, jobs := upd w1.jobs p [(i, ⟨k, p, 0⟩)] } := by
      refine .step (.inner i (.complete 0)) r3 trivial ?_
      simp only [step, upd_self, ht0, h.jobs]
      rw [if_pos (by simpa using (by omega : 0 < c.asyncSize)), hs4]
      have hu : upd (upd w1.sch i s) i s4 = upd w1.sch i s4 := by
        funext j
        by_cases hj : j = i
        · subst hj; rw [upd_self, upd_self]
        · rw [upd_other _ _ hj, upd_other _ _ hj, upd_other _ _ hj]
      simp [hu]
    have hid : ∀ j, (upd w1.sch i s4 j).threads p = .idle := by
      intro j
      by_cases hj : j = i
      · subst hj; rw [upd_self]; exact hi4
      · rw [upd_other _ _ hj]; exact h.idle j
    have hop : ∀ j, (upd w1.sch i s4 j).closed = false := by
      intro j
      by_cases hj : j = i
      · subst hj; rw [upd_self, hc4]; exact hcl
      · rw [upd_other _ _ hj]; exact h.opn j
    have hat : At c wm p k x (i + 1) { w1 with sch := upd w1.sch i s4, jobs := upd (upd w1.jobs p [(i, ⟨k, p, 0⟩)]) p [] } :=
      ⟨h.ev, h.base, h.com, by simp [upd], h.val, fun j hj => by
        show upd w1.sch i s4 j = _
        rw [upd_other _ _ (by omega)]; exact h.new j (by omega), hid, hop⟩
    refine ih (i + 1) _ (by omega) (work_at (j := i + 1) hat) ?_
    intro w2 hw2
    refine .step (.job p) r4 hop ?_
    have hf : free c { w1 with sch := upd w1.sch i s4, jobs := upd w1.jobs p [(i, ⟨k, p, 0⟩)] } p = true := by
      unfold free
      rw [List.all_eq_true]
      intro j _
      exact decide_eq_true (hid j)
    have hv : value c { w1 with sch := upd w1.sch i s4, jobs := upd w1.jobs p [(i, ⟨k, p, 0⟩)] } ⟨k, p, 0⟩ = some x := h.val
    simp only [step, hf, upd_self, hv]
    exact hw2

/-- After a start, the next record is done, and the process started again. -/
theorem next_one {w0 : W K σ} (ha : 1 ≤ c.asyncSize) {vis : Nat → List (K × Nat)} {wm : Nat → Nat} (h : From c Open w0 (boot c vis wm)) {p : Nat}
    (hc : ∀ i, 1 ≤ (c.sched i).concurrency ∧ (c.sched i).concurrency ≤ p)
    {k : K} {x : X} (hx : (c.src p)[wm p]? = some (k, x)) : ∃ vis', From c Open w0 (boot c vis' (upd wm p (wm p + 1))) := by
  -- the record becomes an event
  obtain ⟨w1, hw1⟩ : ∃ w1, w1 = { (boot c vis wm) with
      evq := upd (fun _ => []) p [⟨k, p, 0⟩], ev := upd (fun _ => []) p [⟨k, p, 0⟩], off := upd (fun _ => 0) 0 (wm p), next := 1 } := ⟨_, rfl⟩
  have r1 : From c Open w0 w1 := by
    refine .step (.arrive p) h trivial ?_
    have : (List.range c.scheds).all (fun i => decide ((c.sched i).concurrency ≤ p)) = true := by
      rw [List.all_eq_true]
      intro j _
      exact decide_eq_true (hc j).2
    simp only [step, boot, List.length_nil, Nat.add_zero, hx, this, hw1]
    simp
  have hid : ∀ j, (w1.sch j).threads p = .idle := by
    intro j
    have : ¬ p < (c.sched j).concurrency := by have := hc j; omega
    simp [hw1, boot, Scheduler.init, this]
  have hat : At c wm p k x 0 { w1 with evq := upd w1.evq p [] } :=
    ⟨by simp [hw1, upd], by simp [hw1, boot], by simp [hw1, boot], by simp [hw1, boot], by simp [value, hw1, upd, hx], fun j _ => by simp [hw1, boot], hid, fun j => by simp [hw1, boot, Scheduler.init]⟩
  obtain ⟨w, hw, h1, h2, h3, h4⟩ := to_end (w0 := w0) hc ha (c.n k) 0 _ (by omega) (work_at (j := 0) hat) (by
    intro w2 hw2
    refine .step (.handle p) r1 (fun j => by simp [hw1, boot, Scheduler.init]) ?_
    have hf : free c w1 p = true := by
      unfold free
      rw [List.all_eq_true]
      intro j _
      exact decide_eq_true (hid j)
    have hq : w1.evq p = [⟨k, p, 0⟩] := by simp [hw1, upd]
    have hv : value c w1 ⟨k, p, 0⟩ = some x := by simp [value, hw1, upd, hx]
    simp only [step, hf, hq, hv]
    exact hw2)
  -- the end: all is done
  obtain ⟨w1, hw1⟩ : ∃ w1, step c w (.commit p 1) = some w1 := by
    simp only [step]
    rw [if_pos ?_]
    · exact ⟨_, rfl⟩
    · rw [h1, h3]; simpa using h4
  have hr := From.step (.crash) (.step (.commit p 1) hw trivial hw1) trivial rfl
  have hwm : w1.wm = upd wm p (wm p + 1) := by
    simp only [step] at hw1
    split at hw1
    · cases hw1
      funext q
      show w.base q + upd w.com p (w.com p + 1) q = _
      rw [h2, h3]
      by_cases hq : q = p
      · subst hq; rw [upd_self, upd_self]
      · rw [upd_other _ _ hq, upd_other _ _ hq]; rfl
    · cases hw1
  rw [hwm] at hr
  exact ⟨_, hr⟩

/-- From every state, all records of a partition can still be done. -/
theorem can_finish (ha : 1 ≤ c.asyncSize) {p : Nat} (hc : ∀ i, 1 ≤ (c.sched i).concurrency ∧ (c.sched i).concurrency ≤ p) (hle : w.wm p ≤ (c.src p).length) :
    ∃ w', From c Open w w' ∧ w'.wm p = (c.src p).length := by
  have key : ∀ n (vis : Nat → List (K × Nat)) (wm : Nat → Nat), From c Open w (boot c vis wm) → wm p + n = (c.src p).length → ∃ w', From c Open w w' ∧ w'.wm p = (c.src p).length := by
    intro n
    induction n with
    | zero => intro vis wm h hn; exact ⟨_, h, by simpa [boot, W.wm] using hn⟩
    | succ n ih =>
      intro vis wm h hn
      have hx : (c.src p)[wm p]? = some ((c.src p)[wm p]'(by omega)) := List.getElem?_eq_getElem _
      obtain ⟨vis', h'⟩ := next_one ha h hc (k := ((c.src p)[wm p]'(by omega)).1) (x := ((c.src p)[wm p]'(by omega)).2) hx
      exact ih vis' _ h' (by rw [upd_self]; omega)
  exact key ((c.src p).length - w.wm p) w.vis w.wm (.step .crash .init trivial rfl) (by omega)

theorem pass_base {i : Nat} {y : Job K} (h : pass c w i y = some w') : w'.base = w.base := by
  unfold pass at h
  split at h
  · split at h
    · cases h; rfl
    · simp only [Option.map_eq_some_iff] at h
      obtain ⟨s, -, rfl⟩ := h; rfl
  · cases h; rfl

theorem wm_le (h : Reach c Open w) (p : Nat) : w.wm p ≤ (c.src p).length := by
  induction h with
  | init => simp [init, boot, W.wm]
  | @step w w' x hr ho hx ih =>
    have hr' := From.step x hr ho hx
    have I := ord_reach hr'
    by_cases hcr : x = .crash
    · subst hcr; cases hx; simpa [boot, W.wm] using ih
    · by_cases h0 : w'.com p = 0
      · -- nothing new
        have hb : w'.base = w.base := by
          cases x with
          | crash => exact absurd rfl hcr
          | arrive q =>
            simp only [step] at hx
            split at hx
            · split at hx
              · cases hx; rfl
              · cases hx
            · cases hx
          | handle q =>
            simp only [step] at hx
            split at hx
            · split at hx
              · have := pass_base hx; exact this
              · cases hx
            · cases hx
          | job q =>
            simp only [step] at hx
            split at hx
            · split at hx
              · have := pass_base hx; exact this
              · cases hx
            · cases hx
          | commit q m =>
            simp only [step] at hx
            split at hx
            · cases hx; rfl
            · cases hx
          | inner i l =>
            cases l with
            | call x => simp [step] at hx
            | complete t =>
              simp only [step] at hx
              split at hx
              · split at hx
                · simp only [Option.map_eq_some_iff] at hx
                  obtain ⟨sch, -, rfl⟩ := hx; rfl
                · cases hx
              · cases hx
            | _ =>
              simp only [step, Option.map_eq_some_iff] at hx
              obtain ⟨sch, -, rfl⟩ := hx; rfl
        unfold W.wm at ih ⊢
        rw [hb, h0]; omega
      · have hlt : w'.com p - 1 < (w'.ev p).length := by have := (done_reach hr' p).1; omega
        obtain ⟨-, -, -, x', hx'⟩ := I.evs p (w'.com p - 1) _ (List.getElem?_eq_getElem hlt)
        have := (List.getElem?_eq_some_iff.mp hx').1
        unfold W.wm; omega

end Verif.Stages
