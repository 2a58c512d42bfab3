import Verif.Deadline.Full
/-
How long a transaction waits in the commit queue.
-/
namespace Verif.Deadline

/-- Executions from a given state in which nobody is late by more than `L`, with their steps. -/
inductive From (c : Delay.Cfg) (L : Nat) (s : S) : List Delay.Label → S → Prop where
  | here : From c L s [] s
  | next {ls : List Delay.Label} {t u : S} (l : Delay.Label) : From c L s ls t → (∀ d, l = .pass d → InTime L t d) → step c t l = some u →
      From c L s (ls ++ [l]) u

/-- How many transactions the commit loop took, `streams/eos_producer.go:211`. -/
def takes (ls : List Delay.Label) : Nat := ls.count (.pool .take)

theorem From.prompt {c : Delay.Cfg} {L : Nat} {s u : S} {ls : List Delay.Label} (h : From c L s ls u) (hs : Prompt c L s) : Prompt c L u := by
  induction h with
  | here => exact hs
  | next l _ hp hstep ih => exact ih.step l hp hstep

theorem takes_snoc (ls : List Delay.Label) (l : Delay.Label) : takes (ls ++ [l]) = takes ls + (if l = .pool .take then 1 else 0) := by
  simp only [takes, List.count_append, List.count_cons, List.count_nil, Nat.zero_add, beq_iff_eq]

/-- What becomes of a queue: the first ones are taken, others are appended. -/
structure Moved (s : S) (k : Nat) (u : S) : Prop where
  cq : ∃ more, s.d.pool.cq.drop k ++ more = u.d.pool.cq
  le : k ≤ s.d.pool.cq.length

theorem work_step {c : Delay.Cfg} {t u : S} {l : Delay.Label} (h : step c t l = some u) (hf : t.free = false) :
    u.work = if l = .pool .take then t.d.now else t.work := by
  obtain ⟨d, _, rfl⟩ := step_eq h
  simp [hf]

theorem now_step {c : Delay.Cfg} {t u : S} {l : Delay.Label} (h : step c t l = some u) :
    (∃ k, l = .pass k ∧ u.d.now = t.d.now + k ∧ u.d.pool = t.d.pool) ∨ (l = .fire ∧ u.d.now = t.d.now ∧ u.d.pool = t.d.pool) ∨
    (∃ a, l = .pool a ∧ u.d.now = t.d.now ∧ Turns c.eos t.d.pool u.d.pool a) := by
  obtain ⟨d, h1, rfl⟩ := step_eq h
  cases l with
  | pass k => simp only [Delay.step, Option.some.injEq] at h1; subst h1; exact .inl ⟨k, rfl, rfl, rfl⟩
  | fire =>
    simp only [Delay.step] at h1
    split at h1
    · simp only [Option.some.injEq] at h1; subst h1; exact .inr (.inl ⟨rfl, rfl, rfl⟩)
    · cases h1
  | pool l =>
    obtain ⟨h0, p', t', h2, h3, rfl⟩ := Delay.pool_step h1
    have ⟨tp, tn⟩ := Delay.timer_pool h3
    exact .inr (.inr ⟨l, rfl, tn, turns_of h2⟩)

/-- While the first ones of the queue are taken the last one is still there. -/
theorem moved {c : Delay.Cfg} {L : Nat} {s u : S} {ls : List Delay.Label} (h : From c L s ls u)
    (hk : takes ls ≤ s.d.pool.cq.length) : Moved s (takes ls) u := by
  induction h with
  | here => exact ⟨⟨[], by simp [takes]⟩, hk⟩
  | @next ls t u l hl hp hs ih =>
    rw [takes_snoc] at hk ⊢
    have ⟨⟨more, e⟩, _⟩ := ih (by omega)
    rcases now_step hs with ⟨k, rfl, _, hq⟩ | ⟨rfl, _, hq⟩ | ⟨a, rfl, _, ht⟩
    · exact ⟨⟨more, by simpa [hq] using e⟩, hk⟩
    · exact ⟨⟨more, by simpa [hq] using e⟩, hk⟩
    · refine ⟨?_, hk⟩
      cases ht with
      | push _ _ g2 _ _ g3 => refine ⟨more ++ [t.d.pool.onDeck], ?_⟩; simp [g2, g3, ← e]
      | take q _ g1 =>
        simp only [if_true] at hk ⊢
        have hlt : takes ls < s.d.pool.cq.length := by omega
        rw [g1, List.drop_eq_getElem_cons hlt, List.cons_append, List.cons.injEq] at e
        exact ⟨more, e.2⟩
      | other _ _ g2 _ g3 => refine ⟨more, ?_⟩; simp [g2, g3, e]
      | _ => refine ⟨more, ?_⟩; simp [*]

theorem stopped_stays {c : Delay.Cfg} {t u : S} {l : Delay.Label} (h : step c t l = some u) (hu : u.d.pool.com ≠ .stopped) :
    t.d.pool.com ≠ .stopped := by
  rcases now_step h with ⟨k, rfl, _, hq⟩ | ⟨rfl, _, hq⟩ | ⟨a, rfl, _, ht⟩
  · rwa [hq] at hu
  · rwa [hq] at hu
  · exact not_stopped ht hu

theorem not_free {t : S} (h : t.d.pool.com ≠ .idle ∨ t.d.pool.cq ≠ []) : t.free = false := by
  simp only [S.free, Bool.and_eq_false_iff, decide_eq_false_iff_not]
  exact h

/-- As long as the transaction that was at place `i` of the queue is there, the commit loop took the one it works on early enough. -/
theorem work_bounded {c : Delay.Cfg} {L : Nat} {s u : S} {ls : List Delay.Label} (h0 : Prompt c L s) {i : Nat}
    (hi : i < s.d.pool.cq.length) (h : From c L s ls u) (hk : takes ls ≤ i) (hs : u.d.pool.com ≠ .stopped) :
    u.work ≤ s.d.now + takes ls * (txnTimeout + 4 * L) := by
  induction h with
  | here => have := (com_prompt h0).past.1; omega
  | @next ls t u l hl hp hst ih =>
    rw [takes_snoc] at hk ⊢
    have hts := stopped_stays hst hs
    have h1 := ih (by omega) hts
    have hq : t.d.pool.cq ≠ [] := by
      obtain ⟨⟨more, e⟩, _⟩ := moved hl (by omega)
      rw [← e]
      intro hc
      rw [List.append_eq_nil_iff, List.drop_eq_nil_iff] at hc
      omega
    rw [work_step hst (not_free (.inr hq))]
    split
    · have h2 := work_bound (com_prompt (hl.prompt h0)) hts (.inr hq)
      rw [Nat.add_mul]
      omega
    · simpa using h1

/-- It is taken in time. -/
theorem taken_bound {c : Delay.Cfg} {L : Nat} {s u : S} {ls : List Delay.Label} (h0 : Prompt c L s) {i : Nat}
    (hi : i < s.d.pool.cq.length) (h : From c L s ls u) (hk : takes ls ≤ i) (hs : u.d.pool.com ≠ .stopped) :
    u.d.now ≤ s.d.now + (takes ls + 1) * (txnTimeout + 4 * L) := by
  have h1 := work_bounded h0 hi h hk hs
  have hq : u.d.pool.cq ≠ [] := by
    obtain ⟨⟨more, e⟩, _⟩ := moved h (by omega)
    rw [← e]
    intro hc
    rw [List.append_eq_nil_iff, List.drop_eq_nil_iff] at hc
    omega
  have h2 := work_bound (com_prompt (h.prompt h0)) hs (.inr hq)
  rw [Nat.add_mul]
  omega

/-- The node the commit loop is busy with. -/
def busyWith : Eos.Com → Option Nat
  | .begun p => some p
  | .fin p _ _ _ => some p
  | .relinq p _ => some p
  | .back p => some p
  | _ => none

theorem busy_step {c : Delay.Cfg} {t u : S} {l : Delay.Label} {p : Nat} (h : step c t l = some u) (hb : busyWith t.d.pool.com = some p)
    (h1 : l ≠ .pool .giveBack) (h2 : ∀ b, l ≠ .pool (.commitFail b)) : busyWith u.d.pool.com = some p ∧ u.work = t.work := by
  have hne : t.d.pool.com ≠ .idle := by intro h; rw [h] at hb; cases hb
  refine ⟨?_, ?_⟩
  · rcases now_step h with ⟨k, rfl, _, hq⟩ | ⟨rfl, _, hq⟩ | ⟨a, rfl, _, ht⟩
    · rwa [hq]
    · rwa [hq]
    · cases ht <;> simp_all [busyWith]
  · rw [work_step h (not_free (.inl hne)), if_neg]
    rintro rfl
    rcases now_step h with ⟨k, h, _⟩ | ⟨h, _⟩ | ⟨a, h, _, ht⟩
    · cases h
    · cases h
    · cases h
      cases ht with
      | push _ _ g => exact absurd rfl g
      | take q g => exact hne g
      | other _ _ g => exact absurd rfl g

theorem busy_from {c : Delay.Cfg} {L : Nat} {t u : S} {ls : List Delay.Label} {p : Nat} (h : From c L t ls u)
    (hb : busyWith t.d.pool.com = some p) (h1 : .pool .giveBack ∉ ls) (h2 : ∀ b, .pool (.commitFail b) ∉ ls) :
    busyWith u.d.pool.com = some p ∧ u.work = t.work := by
  induction h with
  | here => exact ⟨hb, rfl⟩
  | next l _ _ hs ih =>
    have ⟨i1, i2⟩ := ih (fun h => h1 (List.mem_append_left _ h)) (fun b h => h2 b (List.mem_append_left _ h))
    have ⟨j1, j2⟩ := busy_step hs i1 (fun h => h1 (by simp [h])) (fun b h => h2 b (by simp [h]))
    exact ⟨j1, j2.trans i2⟩

/-- The transaction that was at place `i` is the one taken, and it is over in time. -/
theorem over_bound {c : Delay.Cfg} {L : Nat} {s t u v : S} {ls ms : List Delay.Label} (h0 : Prompt c L s) {i : Nat}
    (hi : i < s.d.pool.cq.length) (h : From c L s ls t) (hk : takes ls = i) (hu : step c t (.pool .take) = some u)
    (hv : From c L u ms v) (h1 : .pool .giveBack ∉ ms) (h2 : ∀ b, .pool (.commitFail b) ∉ ms) :
    busyWith v.d.pool.com = some (s.d.pool.cq[i]) ∧ v.d.now ≤ s.d.now + (i + 2) * (txnTimeout + 4 * L) := by
  subst hk
  obtain ⟨⟨more, e⟩, _⟩ := moved h (by omega)
  have hb : busyWith u.d.pool.com = some (s.d.pool.cq[takes ls]) ∧ t.d.pool.com ≠ .stopped ∧ t.d.pool.cq ≠ [] := by
    rcases now_step hu with ⟨k, h, _⟩ | ⟨h, _⟩ | ⟨a, h, _, ht⟩
    · cases h
    · cases h
    · cases h
      cases ht with
      | push _ _ g => exact absurd rfl g
      | take q g1 g2 g3 =>
        rw [List.drop_eq_getElem_cons hi, List.cons_append, g2, List.cons.injEq] at e
        refine ⟨by rw [g3, e.1]; rfl, by simp [g1], by simp [g2]⟩
      | other _ _ g => exact absurd rfl g
  have hw := work_bounded h0 hi h (Nat.le_refl _) hb.2.1
  have hP := h.prompt h0
  have hT := work_bound (com_prompt hP) hb.2.1 (.inr hb.2.2)
  have hU : u.work = t.d.now := by rw [work_step hu (not_free (.inr hb.2.2)), if_pos rfl]
  have ⟨b1, b2⟩ := busy_from hv hb.1 h1 h2
  have hV := work_bound (com_prompt (hv.prompt (hP.step _ (by intro d h; cases h) hu))) (by intro h; rw [h] at b1; cases b1)
    (.inl (by intro h; rw [h] at b1; cases b1))
  refine ⟨b1, ?_⟩
  rw [Nat.add_mul]
  omega

end Verif.Deadline
