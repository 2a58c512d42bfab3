import Verif.Delay.Proofs
/-
How late a transaction can be when nobody is late.
-/
namespace Verif.Delay
open Verif.Eos (upd upd_same upd_ne)

/-- The loop is between taking an event and looking at the size of the transaction. -/
def Adding (s : S) : Prop := s.pool.fwd = .given ∨ ∃ e, s.pool.fwd = .added e

/-- Nobody is late. -/
structure Clock (c : Cfg) (L : Nat) (s : S) : Prop where
  due : s.now ≤ s.due + L
  busy : Busy s → s.now ≤ s.since + L
  chan : s.chan = true → ¬ Blocked s → s.now ≤ s.ready + L
  ready : s.ready ≤ s.now
  tick : Waiting s → s.chan = true → s.ready ≤ s.base + c.delay + L
  fresh : Waiting s → s.tried = false → s.base ≤ s.first + L
  start : Adding s → s.started = true → s.since = s.first ∧ s.tried = false

theorem not_blocked {s : S} (h : Waiting s) : ¬ Blocked s := by
  rintro (h0 | h0) <;> rcases h.2 with h1 | ⟨_, h1 | ⟨e, h1⟩⟩ <;> simp [h0] at h1

theorem clock_init (c : Cfg) (L : Nat) : Clock c L (S.init c) := by
  refine ⟨Nat.zero_le _, fun _ => Nat.zero_le _, fun _ _ => Nat.zero_le _, Nat.le_refl _, fun _ _ => Nat.zero_le _, fun _ _ => Nat.zero_le _, ?_⟩
  rintro (h | ⟨e, h⟩) <;> cases h

theorem clock_prompt {c : Cfg} {L : Nat} {s : S} (h : Prompt c L s) : s.crashed = false → Clock c L s := by
  induction h with
  | init => exact fun _ => clock_init c L
  | @step s s' l hr hp hs ih =>
    intro hc'
    cases l with
    | pass d =>
      obtain ⟨p1, p2, p3⟩ := hp d rfl
      simp only [step, Option.some.injEq] at hs; subst hs
      have I := ih hc'
      exact ⟨p1, p2, p3, Nat.le_trans I.ready (Nat.le_add_right _ _), I.tick, I.fresh, I.start⟩
    | fire =>
      simp only [step] at hs
      split at hs
      · rename_i hd
        simp only [Option.some.injEq] at hs; subst hs
        have I := ih hc'
        have J := set_reach hr.reach hc'
        refine ⟨Nat.le_trans I.due (by simp only; generalize s.period * _ = k; omega), I.busy, ?_, ?_, ?_, I.fresh, I.start⟩
        · intro _ hb
          simp only
          split
          · rename_i hch; exact I.chan hch hb
          · exact Nat.le_add_right _ _
        · simp only; split
          · exact I.ready
          · exact Nat.le_refl _
        · intro hw _
          simp only
          split
          · rename_i hch; exact I.tick hw hch
          · rename_i hch
            rcases J.wake hw with h1 | h1
            · exact absurd h1 hch
            · have := I.due; omega
      · cases hs
    | pool l =>
      obtain ⟨h0, p, t, h1, h2, rfl⟩ := pool_step hs
      have I := ih h0
      have J := set_reach hr.reach h0
      have hm := moves (fresh_reach hr.reach) h1
      cases hm with
      | add e f1 f2 f3 =>
        simp only [timer, Option.some.injEq] at h2; subst h2
        have nb : ¬ Blocked s := by rintro (h | h) <;> simp [f1] at h
        refine ⟨I.due, fun _ => Nat.le_add_right _ _, fun h _ => I.chan h nb, I.ready, ?_, ?_, ?_⟩
        · rintro ⟨_, hw⟩
          simp only [f2, reduceCtorEq, false_or] at hw
          have hz : s.deck.cnt ≠ 0 := by simpa using hw.1
          exact I.tick ⟨Nat.pos_of_ne_zero hz, .inl f1⟩
        · rintro ⟨_, hw⟩ ht
          simp only [f2, reduceCtorEq, false_or] at hw
          have hz : s.deck.cnt ≠ 0 := by simpa using hw.1
          simp only [if_neg hz] at ht ⊢
          exact I.fresh ⟨Nat.pos_of_ne_zero hz, .inl f1⟩ ht
        · intro _ hst
          have hz : s.deck.cnt = 0 := by simpa using hst
          simp [hz]
      | give e f1 f2 f3 =>
        simp only [timer, Option.some.injEq] at h2; subst h2
        have nb : ¬ Blocked s := by rintro (h | h) <;> simp [f1] at h
        have hb : Busy s := by simp [Busy, f1]
        have hw : Waiting { s with pool := p } → Waiting s := by
          rintro ⟨g1, hw⟩
          simp only [f2, reduceCtorEq, false_or] at hw
          exact ⟨by simpa [S.deck, f3] using g1, .inr ⟨hw.1, .inr ⟨e, f1⟩⟩⟩
        exact ⟨I.due, fun _ => I.busy hb, fun h _ => I.chan h nb, I.ready, fun h => I.tick (hw h), fun h => I.fresh (hw h),
          fun _ => I.start (.inr ⟨e, f1⟩)⟩
      | check1 f1 f2 f3 f4 =>
        simp only [timer] at h2
        rw [if_pos (show c.eos.target ≤ s.deck.load from f2)] at h2
        simp only [Option.some.injEq] at h2; subst h2
        have nb : ¬ Blocked s := by rintro (h | h) <;> simp [f1] at h
        have hb : Busy s := by simp [Busy, f1]
        have nw : ¬ Waiting { s with pool := p } := by rintro ⟨_, hw⟩; simp [f3] at hw
        exact ⟨I.due, fun _ => I.busy hb, fun h _ => I.chan h nb, I.ready, fun h => absurd h nw, fun h => absurd h nw,
          by rintro (h | ⟨e, h⟩) <;> simp [f3] at h⟩
      | check2 f1 f2 f3 f4 =>
        simp only [timer] at h2
        rw [if_neg (show ¬ c.eos.target ≤ s.deck.load from f2)] at h2
        have nb : ¬ Blocked s := by rintro (h | h) <;> simp [f1] at h
        have hb : Busy s := by simp [Busy, f1]
        split at h2
        · rename_i hst
          simp only [Option.some.injEq] at h2; subst h2
          simp only [S.reset] at hc' ⊢
          split at hc'
          · simp at hc'
          · rename_i hd
            simp only [if_neg hd]
            have h3 := I.busy hb
            have h4 := I.start (.inl f1) hst
            refine ⟨?_, ?_, fun h _ => I.chan h nb, I.ready, ?_, ?_, ?_⟩
            · simp only; omega
            · rintro ⟨h, _⟩; simp [f3] at h
            · intro _ _; have := I.ready; simp only; omega
            · intro _ _; simp only; omega
            · rintro (h | ⟨e, h⟩) <;> simp [f3] at h
        · rename_i hst
          simp only [Option.some.injEq] at h2; subst h2
          have hw : Waiting { s with pool := p } → Waiting s := by
            rintro ⟨g1, _⟩
            exact ⟨by simpa [S.deck, f4] using g1, .inr ⟨by simpa using hst, .inl f1⟩⟩
          refine ⟨I.due, ?_, fun h _ => I.chan h nb, I.ready, fun h => I.tick (hw h), fun h => I.fresh (hw h), ?_⟩
          · rintro ⟨h, _⟩; simp [f3] at h
          · rintro (h | ⟨e, h⟩) <;> simp [f3] at h
      | tick f1 f2 f3 =>
        simp only [timer] at h2
        split at h2
        · simp only [Option.some.injEq] at h2; subst h2
          exact ⟨I.due, fun _ => Nat.le_add_right _ _, fun h => by simp at h, I.ready, fun _ h => by simp at h,
            by rintro ⟨_, hw⟩; simp [f2] at hw, by rintro (h | ⟨e, h⟩) <;> simp [f2] at h⟩
        · cases h2
      | try1 f1 f2 f3 =>
        simp only [timer] at h2
        rw [if_pos (show ({ s with base := s.now, tried := true } : S).deck.load = c.eos.max from f2)] at h2
        simp only [Option.some.injEq] at h2; subst h2
        exact ⟨I.due, by rintro ⟨_, h, _⟩; simp [f3] at h, fun _ h => absurd (.inl f3) h, I.ready,
          by rintro ⟨_, hw⟩; simp [f3] at hw, by rintro ⟨_, hw⟩; simp [f3] at hw, by rintro (h | ⟨e, h⟩) <;> simp [f3] at h⟩
      | try2 f1 f2 f3 f4 f5 =>
        simp only [timer] at h2
        rw [if_neg (show ¬ ({ s with base := s.now, tried := true } : S).deck.load = c.eos.max from f2),
          if_pos (show 0 < ({ s with base := s.now, tried := true } : S).deck.cnt from f3), if_pos f4] at h2
        simp only [Option.some.injEq] at h2; subst h2
        exact ⟨I.due, by rintro ⟨_, _, h⟩; simp [f5] at h, fun _ h => absurd (.inr f5) h, I.ready,
          by rintro ⟨_, hw⟩; simp [f5] at hw, by rintro ⟨_, hw⟩; simp [f5] at hw, by rintro (h | ⟨e, h⟩) <;> simp [f5] at h⟩
      | try3 f1 f2 f3 f4 f5 f6 =>
        simp only [timer] at h2
        rw [if_neg (show ¬ ({ s with base := s.now, tried := true } : S).deck.load = c.eos.max from f2),
          if_pos (show 0 < ({ s with base := s.now, tried := true } : S).deck.cnt from f3), if_neg f4] at h2
        simp only [Option.some.injEq] at h2; subst h2
        have nb : ¬ Blocked s := by rintro (h | h) <;> simp [f1] at h
        simp only [S.reset] at hc' ⊢
        split at hc'
        · simp at hc'
        · rename_i hd
          simp only [if_neg hd]
          refine ⟨?_, ?_, fun h _ => I.chan h nb, I.ready, ?_, ?_, ?_⟩
          · simp only; omega
          · rintro ⟨h, _⟩; simp [f5] at h
          · intro _ _; have := I.ready; simp only; omega
          · intro _ h; simp at h
          · rintro (h | ⟨e, h⟩) <;> simp [f5] at h
      | try4 f1 f2 f3 f4 f5 =>
        simp only [timer] at h2
        rw [if_neg (show ¬ ({ s with base := s.now, tried := true } : S).deck.load = c.eos.max from f2),
          if_neg (show ¬ 0 < ({ s with base := s.now, tried := true } : S).deck.cnt from f3)] at h2
        simp only [Option.some.injEq] at h2; subst h2
        have nb : ¬ Blocked s := by rintro (h | h) <;> simp [f1] at h
        refine ⟨?_, ?_, fun h _ => I.chan h nb, I.ready, ?_, ?_, ?_⟩
        · simp only [S.reset, minute]; simp only [show ¬ (60000000000 = 0) by decide, if_false]; omega
        · rintro ⟨h, _⟩; simp [f4] at h
        · rintro ⟨g1, _⟩; simp only [S.deck, f5] at g1; exact absurd g1 f3
        · rintro ⟨g1, _⟩; simp only [S.deck, f5] at g1; exact absurd g1 f3
        · rintro (h | ⟨e, h⟩) <;> simp [f4] at h
      | forced f1 f2 =>
        simp only [timer, Option.some.injEq] at h2; subst h2
        exact ⟨I.due, by rintro ⟨_, _, h⟩; simp [f2] at h, fun _ h => absurd (.inr f2) h, I.ready,
          by rintro ⟨_, hw⟩; simp [f2] at hw, by rintro ⟨_, hw⟩; simp [f2] at hw, by rintro (h | ⟨e, h⟩) <;> simp [f2] at h⟩
      | swapIn f1 f2 f3 =>
        simp only [timer, Option.some.injEq] at h2; subst h2
        exact ⟨I.due, by rintro ⟨h, _⟩; simp [f2] at h, fun _ _ => Nat.le_add_right _ _, Nat.le_refl _,
          by rintro ⟨g1, _⟩; simp [S.deck, f3] at g1, by rintro ⟨g1, _⟩; simp [S.deck, f3] at g1,
          by rintro (h | ⟨e, h⟩) <;> simp [f2] at h⟩
      | other _ g0 _ _ _ f2 f3 =>
        rw [g0] at h2
        simp only [Option.some.injEq] at h2; subst h2
        have hw : Waiting { s with pool := p } → Waiting s := by
          rintro ⟨g1, hw⟩
          refine ⟨?_, by simpa only [f2] using hw⟩
          simp only [S.deck] at g1 ⊢
          rcases f3 with f3 | f3 <;> rw [f3] at g1
          · exact g1
          · exact absurd g1 (by simp)
        refine ⟨I.due, ?_, ?_, I.ready, fun h => I.tick (hw h), fun h => I.fresh (hw h), ?_⟩
        · intro h; exact I.busy (by simpa only [Busy, f2] using h)
        · intro h hb; exact I.chan h (by simpa only [Blocked, f2] using hb)
        · intro h; exact I.start (by simpa only [Adding, f2] using h)

/-- How long the transaction on deck can wait for an attempt to commit it. -/
theorem wait_bound {c : Cfg} {L : Nat} {s : S} (h : Prompt c L s) (hc : s.crashed = false) (hw : Waiting s) :
    s.now ≤ s.base + c.delay + 2 * L := by
  have I := clock_prompt h hc
  have J := set_reach h.reach hc
  by_cases hch : s.chan = true
  · have h1 := I.chan hch (not_blocked hw)
    have h2 := I.tick hw hch
    omega
  · have h1 := I.due
    rcases J.wake hw with h2 | h2
    · exact absurd h2 hch
    · omega

/-- In executions with room in the queue no attempt fails. -/
theorem roomy_fresh {c : Cfg} {L : Nat} {s : S} (h : Roomy c L s) (hc : s.crashed = false) : Waiting s → s.tried = false := by
  induction h with
  | init => exact fun _ => rfl
  | @step s s' l hr hp hq hs ih =>
    cases l with
    | pass d =>
      simp only [step, Option.some.injEq] at hs; subst hs
      exact ih hc
    | fire =>
      simp only [step] at hs
      split at hs
      · simp only [Option.some.injEq] at hs; subst hs
        exact ih hc
      · cases hs
    | pool l =>
      obtain ⟨h0, p, t, h1, h2, rfl⟩ := pool_step hs
      have I := ih h0
      have C := clock_prompt hr.prompt h0
      have hm := moves (fresh_reach hr.prompt.reach) h1
      cases hm with
      | add e f1 f2 f3 =>
        simp only [timer, Option.some.injEq] at h2; subst h2
        rintro ⟨_, hw⟩
        simp only [f2, reduceCtorEq, false_or] at hw
        have hz : s.deck.cnt ≠ 0 := by simpa using hw.1
        simp only [if_neg hz]
        exact I ⟨Nat.pos_of_ne_zero hz, .inl f1⟩
      | give e f1 f2 f3 =>
        simp only [timer, Option.some.injEq] at h2; subst h2
        rintro ⟨g1, hw⟩
        simp only [f2, reduceCtorEq, false_or] at hw
        exact I ⟨by simpa [S.deck, f3] using g1, .inr ⟨hw.1, .inr ⟨e, f1⟩⟩⟩
      | check1 f1 f2 f3 f4 =>
        rintro ⟨_, hw⟩
        simp [f3] at hw
      | check2 f1 f2 f3 f4 =>
        simp only [timer] at h2
        rw [if_neg (show ¬ c.eos.target ≤ s.deck.load from f2)] at h2
        split at h2
        · rename_i hst
          simp only [Option.some.injEq] at h2; subst h2
          intro _
          have h4 := I
          have h5 := (C.start (.inl f1) hst).2
          simp only [S.reset]
          split <;> exact h5
        · rename_i hst
          simp only [Option.some.injEq] at h2; subst h2
          rintro ⟨g1, _⟩
          exact I ⟨by simpa [S.deck, f4] using g1, .inr ⟨by simpa using hst, .inl f1⟩⟩
      | tick f1 f2 f3 => rintro ⟨_, hw⟩; simp [f2] at hw
      | try1 f1 f2 f3 => rintro ⟨_, hw⟩; simp [f3] at hw
      | try2 f1 f2 f3 f4 f5 => rintro ⟨_, hw⟩; simp [f5] at hw
      | try3 f1 f2 f3 f4 f5 f6 => exact absurd (hq rfl) f4
      | try4 f1 f2 f3 f4 f5 =>
        rintro ⟨g1, _⟩; simp only [S.deck, f5] at g1; exact absurd g1 f3
      | forced f1 f2 => rintro ⟨_, hw⟩; simp [f2] at hw
      | swapIn f1 f2 f3 => rintro ⟨g1, _⟩; simp [S.deck, f3] at g1
      | other _ g0 _ _ _ f2 f3 =>
        rw [g0] at h2
        simp only [Option.some.injEq] at h2; subst h2
        rintro ⟨g1, hw⟩
        refine I ⟨?_, by simpa only [f2] using hw⟩
        simp only [S.deck] at g1 ⊢
        rcases f3 with f3 | f3 <;> rw [f3] at g1
        · exact g1
        · exact absurd g1 (by simp)

end Verif.Delay
