import Verif.Scheduler.Limits
/-
The limit in force, and that a caller who waits for a free key is not forgotten (streams/async_scheduler.go:249-258,310-320,351-363,382-397).
-/
namespace Verif.Scheduler
set_option linter.unusedSectionVars false
set_option linter.unusedTactic false
set_option linter.unusedSimpArgs false
set_option linter.unreachableTactic false
variable {K : Type} [DecidableEq K]

/-- The limit after one step (specification). -/
def newLimit (m : Nat) : Label K → Nat
  | .setMax _ n => n
  | _ => m

/-- The limit in force after some steps: the one set last, or the configured one. -/
def limitAfter (c : Config) (ls : List (Label K)) : Nat :=
  ls.foldl newLimit (max c.concurrency c.maxKeys)

/-- One step and the limit. -/
theorem step_limit {s s' : State K} {l : Label K} (h : step s l = some s') :
    s'.maxKeys = newLimit s.maxKeys l ∧
      (s'.map.length ≤ s.map.length ∨ (s'.map.length = s.map.length + 1 ∧ s.map.length < s.maxKeys)) := by
  cases l with
  | lock t pick =>
    simp only [step] at h
    split at h
    · unfold State.lock at h
      split at h
      · simp only [Option.some.injEq] at h; subst h; exact ⟨rfl, .inl (Nat.le_refl _)⟩
      · split at h
        · simp only [Option.some.injEq] at h; subst h; exact ⟨rfl, .inl (Nat.le_refl _)⟩
        · rename_i hlt
          simp only [Option.map_eq_some_iff] at h
          obtain ⟨⟨s1, w⟩, hp, rfl⟩ := h
          have hk : s1.maxKeys = s.maxKeys ∧ s1.map = s.map := by
            unfold State.poolGet at hp
            split at hp
            · split at hp
              · simp only [Option.some.injEq, Prod.mk.injEq] at hp; obtain ⟨rfl, rfl⟩ := hp; exact ⟨rfl, rfl⟩
              · simp at hp
            · simp only [Option.some.injEq, Prod.mk.injEq] at hp; obtain ⟨rfl, rfl⟩ := hp; exact ⟨rfl, rfl⟩
          refine ⟨hk.1, .inr ⟨?_, by omega⟩⟩
          show (s1.map ++ _).length = _
          rw [hk.2]; simp
    · simp at h
  | release t =>
    simp only [step] at h
    split at h
    · simp only [Option.some.injEq] at h; subst h
      unfold State.release
      split
      · exact ⟨rfl, .inl (List.length_filter_le _ _)⟩
      · exact ⟨rfl, .inl (Nat.le_refl _)⟩
    · simp at h
  | setMax t n =>
    simp only [step] at h
    split at h
    · unfold State.setMax at h
      split at h
      · split at h <;> (simp only [Option.some.injEq] at h; subst h; exact ⟨rfl, .inl (Nat.le_refl _)⟩)
      · simp at h
    · simp at h
  | _ =>
    simp only [step, State.send, State.recv, State.peekStep, State.xferStep, State.publish] at h
    repeat' split at h
    all_goals first
      | (simp at h; done)
      | (simp only [Option.some.injEq] at h; subst h; exact ⟨rfl, .inl (Nat.le_refl _)⟩)
      | (simp only [Option.map_eq_some_iff] at h; obtain ⟨q, -, rfl⟩ := h; exact ⟨rfl, .inl (Nat.le_refl _)⟩)
      | (simp only [Option.some.injEq] at h; subst h; repeat' split
         all_goals exact ⟨rfl, .inl (Nat.le_refl _)⟩)

/-- The goroutines that keep things going for a caller that waits for a key. -/
def Awake (s : State K) : Prop :=
  s.sig = true ∨ s.map ≠ [] ∨ (∃ u, s.threads u = .wSig) ∨ ∃ u y, s.threads u = .want y

/-- A step of a goroutine that is not responsible for waking keeps someone awake. -/
theorem awake_frame {s s' : State K} {t : Nat} {p : Phase K}
    (I : s.closed = true ∨ ((∃ t x, s.threads t = .waiting x) → Awake s)) (hc : s'.closed = s.closed) (hs : s'.sig = s.sig)
    (hm : s'.map = s.map) (ht : s'.threads = upd s.threads t p)
    (h1 : s.threads t ≠ .wSig) (h2 : ∀ y, s.threads t ≠ .want y) (h3 : ∀ y, p ≠ .waiting y) :
    s'.closed = true ∨ ((∃ t x, s'.threads t = .waiting x) → Awake s') := by
  rcases I with I | I
  · exact .inl (hc.trans I)
  · refine .inr fun ⟨u, x, hu⟩ => ?_
    have hu' : s.threads u = .waiting x := by
      rw [ht] at hu
      by_cases e : u = t
      · subst e; simp only [upd, if_true] at hu; exact absurd hu (h3 x)
      · simpa only [upd, if_neg e] using hu
    rcases I ⟨u, x, hu'⟩ with h | h | ⟨v, h⟩ | ⟨v, y, h⟩
    · exact .inl (hs.trans h)
    · exact .inr (.inl (by rw [hm]; exact h))
    · refine .inr (.inr (.inl ⟨v, ?_⟩))
      rw [ht]; unfold upd; rw [if_neg (by rintro rfl; exact h1 h)]; exact h
    · refine .inr (.inr (.inr ⟨v, y, ?_⟩))
      rw [ht]; unfold upd; rw [if_neg (by rintro rfl; exact h2 y h)]; exact h

/-- As `awake_frame`, if no goroutine moves. -/
theorem awake_same {s s' : State K}
    (I : s.closed = true ∨ ((∃ t x, s.threads t = .waiting x) → Awake s)) (hc : s.closed = true → s'.closed = true) (hs : s'.sig = s.sig)
    (hm : s'.map = s.map) (ht : s'.threads = s.threads) :
    s'.closed = true ∨ ((∃ t x, s'.threads t = .waiting x) → Awake s') := by
  rcases I with I | I
  · exact .inl (hc I)
  · refine .inr fun ⟨u, x, hu⟩ => ?_
    rw [ht] at hu
    unfold Awake
    rw [hs, hm, ht]
    exact I ⟨u, x, hu⟩

theorem awake_step {s s' : State K} {l : Label K} (h : step s l = some s') (hm : 1 ≤ s.maxKeys)
    (I : s.closed = true ∨ ((∃ t x, s.threads t = .waiting x) → Awake s)) :
    s'.closed = true ∨ ((∃ t x, s'.threads t = .waiting x) → Awake s') := by
  cases l with
  | call x =>
    simp only [step] at h
    split at h
    · split at h
      · simp at h
      · simp only [Option.some.injEq] at h; subst h
        exact .inr fun _ => .inr (.inr (.inr ⟨x.caller, x, by simp [State.goto, upd]⟩))
    · simp at h
  | lock t pick =>
    right; intro _; right; left
    clear I
    simp only [step] at h
    split at h
    · unfold State.lock at h
      split at h
      · rename_i w hw
        simp only [Option.some.injEq] at h; subst h
        show s.map ≠ []
        intro e; simp [State.lookup, e] at hw
      · split at h
        · simp only [Option.some.injEq] at h; subst h
          show s.map ≠ []
          intro e; have hlt : s.map.length ≥ s.maxKeys := by assumption
          rw [e] at hlt; simp at hlt; omega
        · simp only [Option.map_eq_some_iff] at h
          obtain ⟨⟨s1, w⟩, hp, rfl⟩ := h
          show s1.map ++ _ ≠ []
          simp
    · simp at h
  | wake t =>
    simp only [step] at h
    split at h
    · split at h
      · simp only [Option.some.injEq] at h; subst h
        by_cases hc : s.closed = true
        · exact .inl hc
        · rename_i x _ _
          exact .inr fun _ => .inr (.inr (.inr ⟨t, x, by simp [State.goto, upd, hc]⟩))
      · simp at h
    · simp at h
  | exit t =>
    simp only [step] at h
    split at h
    · split at h
      · rename_i hc
        simp only [Option.some.injEq] at h; subst h; exact .inl hc
      · simp at h
    · simp at h
  | release t =>
    simp only [step] at h
    split at h
    · rename_i w hw
      simp only [Option.some.injEq] at h; subst h
      unfold State.release
      split
      · exact .inr fun _ => .inr (.inr (.inl ⟨t, by simp [State.goto, upd]⟩))
      · exact awake_frame (p := .wEnq w) (t := t) I rfl rfl rfl rfl (by simp [hw]) (by simp [hw]) (by simp)
    · simp at h
  | signal t =>
    simp only [step] at h
    split at h
    · simp only [Option.some.injEq] at h; subst h
      by_cases hc : s.closed = true
      · exact .inl hc
      · exact .inr fun _ => .inl (by simp [hc])
    · simp at h
  | close =>
    simp only [step, Option.some.injEq] at h; subst h; exact .inl rfl
  | _ =>
    simp only [step, State.send, State.recv, State.peekStep, State.xferStep, State.publish, State.setMax] at h
    repeat' split at h
    all_goals first
      | (simp at h; done)
      | (simp only [Option.some.injEq] at h; subst h
         exact awake_same I id rfl rfl rfl)
      | (simp only [Option.some.injEq] at h; subst h
         refine awake_frame I rfl rfl rfl rfl ?_ ?_ ?_ <;> simp [*])
      | (simp only [Option.map_eq_some_iff] at h; obtain ⟨q, -, rfl⟩ := h
         refine awake_frame I rfl rfl rfl rfl ?_ ?_ ?_ <;> simp [*])
      | (simp only [Option.some.injEq] at h; subst h; repeat' split
         all_goals (refine awake_frame I rfl rfl rfl rfl ?_ ?_ ?_ <;> simp [*]))

end Verif.Scheduler
