import Verif.Cadence.Upper
/-
Property C101: when a periodic interjection is called (`streams/interjection.go`, `streams/partition_worker.go`, `streams/event_source.go:291-310`).
-/
namespace Verif.Cadence
open Verif.Periodic

variable {every jitter : Int} {ls : List Label} {s : S}

/-- C101. In every execution of a worker, calls of the interjection do not overlap, and each begins no earlier than the interval less the jitter after the end of the
one before it (the first one: after the worker became active), for all draws. -/
theorem C101_not_early (h : run every jitter S.init ls = some s) : Spec.Spaced (Spec.shortest every jitter) s.hist := (inv_run inv_init h).spaced

theorem begins_pairwise {g : Nat} {h : List Ev} (H : Spec.Spaced g h) :
    (Spec.begins h).Pairwise (fun b a => a + g ≤ b) ∧
      ∀ a ∈ Spec.begins h, match h with | .began t :: _ | .ended t :: _ | .started t :: _ => a ≤ t | [] => True := by
  fun_induction Spec.Spaced g h with
  | case1 => simp [Spec.begins]
  | case2 t => simp [Spec.begins]
  | case3 b e rest ih =>
    obtain ⟨h1, h2⟩ := ih H.2
    simp only [Spec.begins] at h1 h2 ⊢
    refine ⟨List.pairwise_cons.2 ⟨fun a ha => ?_, h1⟩, fun a ha => ?_⟩
    · have := h2 a ha; have := H.1; omega
    · rcases List.mem_cons.1 ha with rfl | ha
      · exact Nat.le_refl _
      · have := h2 a ha; have := H.1; omega
  | case4 b e rest ih =>
    obtain ⟨h1, h2⟩ := ih H.2
    simp only [Spec.begins] at h1 h2 ⊢
    refine ⟨List.pairwise_cons.2 ⟨fun a ha => ?_, h1⟩, fun a ha => ?_⟩
    · have := h2 a ha; have := H.1; omega
    · rcases List.mem_cons.1 ha with rfl | ha
      · exact Nat.le_refl _
      · have := h2 a ha; have := H.1; omega
  | case5 e b rest ih =>
    obtain ⟨h1, h2⟩ := ih H.2
    simp only [Spec.begins] at h1 h2 ⊢
    refine ⟨h1, fun a ha => ?_⟩
    have := h2 a ha; have := H.1; omega
  | case6 => exact absurd H (by unfold Spec.Spaced; split <;> simp_all)

theorem count_le {g t : Nat} (l : List Nat) : ∀ w, l.Pairwise (fun b a => a + g ≤ b) → (∀ b ∈ l, t ≤ b ∧ b ≤ t + w) → l.length * g ≤ w + g := by
  induction l with
  | nil => simp
  | cons b r ih =>
    intro w hp hb
    obtain ⟨h1, h2⟩ := List.pairwise_cons.1 hp
    have hb0 := hb b (by simp)
    rw [List.length_cons, Nat.succ_mul]
    cases r with
    | nil => simp
    | cons a r =>
      have ha := h1 a (by simp)
      have ha' := hb a (by simp)
      have := ih (b - t - g) h2 (fun x hx => by have := h1 x hx; have := hb x (List.mem_cons_of_mem _ hx); omega)
      omega

/-- C101. How often: in any stretch of time `w` at most `w / (interval - jitter) + 1` calls begin. -/
theorem C101_rate (h : run every jitter S.init ls = some s) (t w : Nat) :
    Spec.within t w s.hist * Spec.shortest every jitter ≤ w + Spec.shortest every jitter := by
  have hp := (begins_pairwise (C101_not_early h)).1
  refine count_le (t := t) _ w (hp.sublist List.filter_sublist) (fun b hb => ?_)
  simpa using (List.mem_filter.1 hb).2

theorem upto_step {u : Nat} {lt : Spec.Lat} (hu : u = Spec.longest every jitter + lt.sum) {s s' : S} {l : Label} (I : Inv every jitter s) (T : Spec.InTime lt s)
    (L : Late every jitter lt s) (U : Spec.Upto u s.hist) (h : step every jitter s l = some s') : Spec.Upto u s'.hist := by
  have same : s'.hist = s.hist → Spec.Upto u s'.hist := fun e => e ▸ U
  cases l with
  | start k n =>
    simp only [step] at h; split at h
    · simp only [Option.map_eq_some_iff] at h; obtain ⟨j, hj, rfl⟩ := h; simpa [Spec.Upto] using U
    · simp at h
  | expire i =>
    simp only [step] at h; split at h
    · split at h
      · simp only [Option.map_eq_some_iff] at h; obtain ⟨j, hj, rfl⟩ := h; exact same rfl
      · simp at h
    · simp at h
  | enter =>
    simp only [step] at h; split at h
    · rename_i hc
      simp only [Option.some.injEq] at h; subst h
      obtain ⟨e, he⟩ := I.idle hc.2 (started_of I.good (by omega))
      have h1 := L.call e he hc.1
      have h2 := T.call hc.1 hc.2
      have hle : s.now ≤ e + u := by subst hu; unfold Spec.Lat.sum; omega
      cases hh : s.hist with
      | nil => simp [hh, lastEnd] at he
      | cons a r =>
        rw [hh] at he U
        cases a <;> simp only [lastEnd, Option.some.injEq, reduceCtorEq] at he <;> subst he <;> simp only [Spec.Upto] at U ⊢ <;> exact ⟨hle, U⟩
    · simp at h
  | leave k n =>
    simp only [step] at h; split at h
    · simp only [Option.map_eq_some_iff] at h; obtain ⟨j, hj, rfl⟩ := h; simpa [Spec.Upto] using U
    · simp at h
  | pass d => simp only [step, Option.some.injEq] at h; subst h; exact U
  | does l =>
    cases l with
    | handle o =>
      cases o <;> simp only [step] at h
      · split at h
        · simp at h
        · simp only [Option.map_eq_some_iff] at h; obtain ⟨j, hj, rfl⟩ := h; exact same rfl
      · simp at h
      · split at h
        · simp only [Option.map_eq_some_iff] at h; obtain ⟨j, hj, rfl⟩ := h; simpa [Spec.Upto] using U
        · simp at h
    | _ =>
      simp only [step] at h
      first
      | (simp at h; done)
      | (simp only [Option.map_eq_some_iff] at h; obtain ⟨j, hj, rfl⟩ := h; exact same rfl)

/-- C101. How late: when every timer, hand-over and acceptance is within its latency, each call begins no later than the interval plus the jitter plus the latencies after
the end of the one before it. -/
theorem C101_not_late {lt : Spec.Lat} (h : run every jitter S.init ls = some s) (P : Spec.Prompt every jitter lt ls) :
    Spec.Upto (Spec.longest every jitter + lt.sum) s.hist := by
  induction ls using List.reverseRecOn generalizing s with
  | nil => simp only [run, Option.some.injEq] at h; subst h; simp [S.init, Spec.Upto]
  | append_singleton ls l ih =>
    rw [run_snoc, Option.bind_eq_some_iff] at h
    obtain ⟨c, h1, h2⟩ := h
    have P' := prompt_prefix P
    exact upto_step rfl (inv_run inv_init h1) (P' ls.length c (by rw [List.take_length]; exact h1)) (late_run h1 P') (ih h1 P') h2

/-- C101. And it does come: in a worker that is not revoked, while every call returned `Complete`, the time since the end of the last call (or since the worker became active)
never exceeds the interval plus the jitter plus the latencies unless the next call is under way. -/
theorem C101_comes {lt : Spec.Lat} (h : run every jitter S.init ls = some s) (P : Spec.Prompt every jitter lt ls) (hr : s.ij.revoked = false)
    (hl : .does (.handle .incomplete) ∉ ls) (hs : s.ij.started = true) :
    s.running = true ∨ ∃ e r, (s.hist = .ended e :: r ∨ s.hist = .started e :: r) ∧ s.now ≤ e + Spec.longest every jitter + lt.sum := by
  rcases Bool.eq_false_or_eq_true s.running with hrun | hrun
  · exact .inl hrun
  right
  have I := inv_run inv_init h
  have L := late_run h P
  have T : Spec.InTime lt s := P ls.length s (by rw [List.take_length]; exact h)
  obtain ⟨e, he⟩ := I.idle hrun hs
  obtain ⟨ls', h1, h2⟩ := to_periodic h hl
  have N := next_run (s := S.init.ij) good_init (by simp [S.init, Ij.init]) h1 hr h2 hs
  unfold Periodic.Spec.next at N
  have hle : s.now ≤ e + Spec.longest every jitter + lt.sum := by
    unfold Spec.Lat.sum
    by_cases h0 : 0 < s.ij.timers
    · cases hd : s.due with
      | nil => have := I.len; rw [hd] at this; simp at this; omega
      | cons d r =>
        have hm : d ∈ s.due := by rw [hd]; simp
        have := L.due e he d hm; have := T.timer d hm; omega
    · by_cases h1 : 0 < s.ij.pushing
      · have := L.push e he h1; have := T.push h1; omega
      · by_cases h2 : 0 < s.ij.sched
        · have := L.call e he h2; have := T.call h2 hrun; omega
        · have hm : true ∈ s.ij.chan := List.count_pos_iff.1 (by omega)
          have := L.take e he hm; have := T.take hm; omega
  cases hh : s.hist with
  | nil => simp [hh, lastEnd] at he
  | cons a r =>
    rw [hh] at he
    cases a <;> simp only [lastEnd, Option.some.injEq, reduceCtorEq] at he <;> subst he
    · exact ⟨_, r, .inr rfl, hle⟩
    · exact ⟨_, r, .inl rfl, hle⟩

/-- Every second, give or take 100 ms (times in ms): a call after 1 s that takes 200 ms, then the next with the draws that give the shortest delay but one, 901 ms. -/
def twice : List Label :=
  [.start 0 0, .pass 1000, .expire 0, .does .push, .does .take, .enter, .pass 200, .leave (2 ^ 53 - 1) 9, .pass 901, .expire 0, .does .push, .does .take, .enter]

theorem twice_prompt : Spec.Prompt 1000 100 ⟨0, 0, 0, 0⟩ twice := prompt_of_check (by decide +kernel)

/-- The bounds apply to this history, and the second call is one millisecond above the lower bound. -/
example : ∃ s, run 1000 100 S.init twice = some s ∧ s.hist = [.began 2101, .ended 1200, .began 1000, .started 0] ∧ Spec.shortest 1000 100 = 900 ∧
    Spec.within 0 3000 s.hist = 2 := by
  refine ⟨_, rfl, by decide +kernel, by decide, by decide +kernel⟩

example : Spec.Prompt 1000 100 ⟨0, 0, 0, 0⟩ twice ∧ ∃ s, run 1000 100 S.init twice = some s ∧ s.ij.revoked = false ∧ s.ij.started = true ∧
    .does (.handle .incomplete) ∉ twice := ⟨twice_prompt, _, rfl, by decide +kernel, by decide +kernel, by decide⟩

/-- As `twice`, but without jitter in the draws. -/
def slow : List Label :=
  [.start 0 0, .pass 1000, .expire 0, .does .push, .does .take, .enter, .pass 200, .leave 0 0, .pass 1000, .expire 0, .does .push, .does .take, .enter]

/-- C101 is violated as documented ("executed every 900ms - 1100ms", `streams/event_source.go:301`): with an interval of 1000 ms and a jitter of 100 ms, with no latency
anywhere, two consecutive calls begin 1200 ms apart, because the interval is counted from the end of a call. -/
theorem C101_violated_interval : ∃ s, run 1000 100 S.init slow = some s ∧ Spec.Prompt 1000 100 ⟨0, 0, 0, 0⟩ slow ∧ Spec.begins s.hist = [2200, 1000] :=
  ⟨_, rfl, prompt_of_check (by decide +kernel), by decide +kernel⟩

/-- A jitter above the interval: the delay can be negative, the timer expires at once, and two calls begin at the same time. The lower bound is zero then. -/
example : Spec.shortest 100 300 = 0 ∧ ∃ s, run 100 300 S.init [.start (2 ^ 52) 9, .expire 0, .does .push, .does .take, .enter, .leave (2 ^ 52) 9, .expire 0, .does .push,
    .does .take, .enter] = some s ∧ Spec.begins s.hist = [0, 0] := ⟨by decide, _, rfl, by decide +kernel⟩

end Verif.Cadence
