import Verif.Deadline.Proofs
/-
A transaction behind a full queue.
-/
namespace Verif.Deadline

/-- The queue is full behind a transaction whose events are not completed. -/
structure Stuck (c : Delay.Cfg) (q : Nat) (s : S) : Prop where
  full : Delay.Full c s.d
  com : ∃ a f x, s.d.pool.com = .fin q a f x
  opened : (s.d.pool.nodes q).opened = true

theorem lift {c : Delay.Cfg} {L : Nat} {s : S} {l : Delay.Label} {d : Delay.S} (h : Prompt c L s)
    (hp : ∀ k, l = .pass k → InTime L s k) (hs : Delay.step c s.d l = some d) {q : Nat} (ho : (s.d.pool.nodes q).opened = true) :
    ∃ s', Prompt c L s' ∧ s'.d = d ∧ s'.dead q = s.dead q := by
  refine ⟨_, h.step l hp (by simp only [step, hs, Option.map_some]; rfl), rfl, ?_⟩
  simp [ho]

theorem stuck_again {c : Delay.Cfg} (hd : 0 < c.delay) {q : Nat} {s : S} (h : Prompt c 0 s) (I : Stuck c q s)
    (hq : s.d.now + c.delay ≤ s.dead q) :
    ∃ s', Prompt c 0 s' ∧ Stuck c q s' ∧ s'.d.first = s.d.first ∧ s'.dead q = s.dead q ∧ s'.d.now = s.d.now + c.delay := by
  obtain ⟨⟨i1, i2, i3, i4, i5, i6, i7⟩, ⟨a, f, x, hc⟩, ho⟩ := I
  have hcom : ∀ p b g y, s.d.pool.com = .fin p b g y → p = q := by
    intro p b g y h; rw [hc] at h; cases h; rfl
  obtain ⟨s1, p1, e1, k1⟩ := lift h (l := .pass c.delay) (q := q) (by
    intro d hd'
    cases hd'
    refine ⟨⟨by omega, ?_, ?_⟩, ?_, ?_⟩
    · intro hb; exact absurd i1 hb.1
    · intro hb; rw [i6] at hb; cases hb
    · rintro (⟨p, h⟩ | ⟨p, r, h⟩ | ⟨p, h⟩ | ⟨h, _⟩) <;> rw [hc] at h <;> cases h
    · intro p b g y h
      rw [hcom p b g y h]
      omega) rfl ho
  obtain ⟨s2, p2, e2, k2⟩ := lift p1 (l := .fire) (q := q) (fun d hd' => by cases hd')
    (d := { s.d with now := s.d.now + c.delay, due := s.d.due + s.d.period * (1 + (s.d.now + c.delay - s.d.due) / s.d.period), chan := true, ready := s.d.now + c.delay })
    (by rw [e1]; simp only [Delay.step]; rw [if_pos (by omega)]; simp [i6]) (by rw [e1]; exact ho)
  obtain ⟨s3, p3, e3, k3⟩ := lift p2 (l := .pool .tick) (q := q) (fun d hd' => by cases hd') (by
    rw [e2]
    simp only [Delay.step, i7, Bool.false_eq_true, if_false, Delay.timer, if_true, Eos.step, i1]; rfl) (by rw [e2]; exact ho)
  obtain ⟨s4, p4, e4, k4⟩ := lift p3 (l := .pool .tryFlush) (q := q) (fun d hd' => by cases hd') (by
    rw [e3]
    simp only [Delay.step, Bool.false_eq_true, if_false, Delay.timer, Eos.step, Delay.S.deck]
    simp only [Delay.S.deck] at i2 i3
    rw [if_neg i3, if_neg i3, if_pos i2, if_pos i2, if_neg i4, if_neg i4, Delay.reset_ok hd]) (by rw [e3]; exact ho)
  refine ⟨s4, p4, ⟨?_, ⟨a, f, x, by rw [e4]; exact hc⟩, by rw [e4]; exact ho⟩, by rw [e4], ?_, by rw [e4]⟩
  · rw [e4]; exact ⟨rfl, i2, i3, i4, rfl, rfl, rfl⟩
  · rw [k4, k3, k2, k1]

theorem stuck_long {c : Delay.Cfg} (hd : 0 < c.delay) {q : Nat} {s : S} (h : Prompt c 0 s) (I : Stuck c q s) (j : Nat)
    (hj : s.d.now + j * c.delay ≤ s.dead q) :
    ∃ s', Prompt c 0 s' ∧ Stuck c q s' ∧ s'.d.first = s.d.first ∧ s'.dead q = s.dead q ∧ s'.d.now = s.d.now + j * c.delay := by
  induction j with
  | zero => exact ⟨s, h, I, rfl, rfl, by simp⟩
  | succ j ih =>
    rw [Nat.succ_mul] at hj
    obtain ⟨t, h1, h2, h3, h4, h5⟩ := ih (by omega)
    obtain ⟨u, g1, g2, g3, g4, g5⟩ := stuck_again hd h1 h2 (by rw [h4, h5]; omega)
    exact ⟨u, g1, g2, g3.trans h3, g4.trans h4, by rw [g5, h5, Nat.succ_mul]; omega⟩

end Verif.Deadline
