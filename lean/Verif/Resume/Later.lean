import Verif.Resume.Proofs
/-
What has been passed over stays so, whatever the configuration: proofs for C108.
-/
set_option linter.unusedSectionVars false
set_option linter.unusedSimpArgs false
set_option linter.unusedVariables false
namespace Verif.Resume

structure Up (s : S) : Prop where
  log : s.log.Pairwise (· ≤ ·)
  pend : s.pend.Pairwise (· < ·)
  above : ∀ o ∈ s.pend, ∀ v ∈ s.log, v ≤ o
  none : (∀ hi pos, s.phase ≠ .ready hi pos) → s.pend = []
  ready : ∀ hi pos, s.phase = .ready hi pos → (∀ v ∈ s.log, (v : Int) ≤ hi) ∧ ∀ o ∈ s.pend, (o : Int) < hi

theorem le_last : ∀ {l : List Nat} {x : Nat}, l.Pairwise (· ≤ ·) → l.getLast? = some x → ∀ v ∈ l, v ≤ x := by
  intro l x hp hl v hv
  obtain ⟨ys, rfl⟩ := List.getLast?_eq_some_iff.1 hl
  rw [List.pairwise_append] at hp
  rcases List.mem_append.1 hv with hv | hv
  · exact hp.2.2 v hv x (by simp)
  · exact Nat.le_of_eq (List.mem_singleton.1 hv)

theorem lt_last : ∀ {l : List Nat} {x : Nat}, l.Pairwise (· < ·) → l.getLast? = some x → ∀ v ∈ l, v ≤ x := by
  intro l x hp hl
  exact le_last (hp.imp (fun h => Nat.le_of_lt h)) hl

theorem up_init (c : Cfg) (n : Nat) : Up (S.init c n) := by
  constructor <;> simp [S.init]

theorem up_step {c : Cfg} {s s' : S} {x : Act} (I : Up s) (h : step c s x = some s') : Up s' := by
  cases x with
  | arrive => simp only [step, Option.some.injEq] at h; subst h; exact { I with }
  | readLog =>
    simp only [step] at h
    split at h
    · cases h; exact { I with }
    · cases h
  | assign =>
    simp only [step] at h
    split at h
    · rename_i hp
      simp only [Option.some.injEq] at h
      subst h
      refine { I with none := ?_, ready := ?_ }
      · intro _; exact I.none (by rw [hp]; intro _ _ h; cases h)
      · intro hi pos hs; cases hs
    · cases h
  | ready =>
    simp only [step] at h
    split at h
    · rename_i st hp
      split at h
      · rename_i hr
        simp only [Option.some.injEq] at h
        subst h
        have hn := I.none (by rw [hp]; intro _ _ h; cases h)
        refine { I with none := ?_, ready := ?_ }
        · intro h; exact absurd rfl (h _ _)
        · intro hi pos hs
          simp only [Phase.ready.injEq] at hs
          obtain ⟨e1, e2⟩ := hs
          subst e1
          refine ⟨?_, ?_⟩
          · intro v hv
            simp only at hv
            cases hl : s.log.getLast? with
            | none => rw [List.getLast?_eq_none_iff] at hl; rw [hl] at hv; cases hv
            | some x =>
              rw [watermark_full hr hl]
              have := le_last I.log hl v hv
              omega
          · intro o ho; simp only at ho; rw [hn] at ho; cases ho
      · cases h
    · cases h
  | give =>
    simp only [step] at h
    split at h
    · rename_i hi pos hp
      obtain ⟨h1, h2⟩ := I.ready hi pos hp
      split at h
      · split at h
        · rename_i hle
          simp only [Option.some.injEq] at h
          subst h
          constructor
          · exact I.log
          · show (s.pend ++ [pos]).Pairwise _
            rw [List.pairwise_append]
            refine ⟨I.pend, by simp, ?_⟩
            intro o ho y hy
            rw [List.mem_singleton.1 hy]
            have := h2 o ho
            omega
          · intro o ho v hv
            rcases List.mem_append.1 ho with ho | ho
            · exact I.above o ho v hv
            · rw [List.mem_singleton.1 ho]
              have := h1 v hv
              omega
          · intro h; exact absurd rfl (h _ _)
          · intro hi' pos' hs
            simp only [Phase.ready.injEq] at hs
            obtain ⟨e1, e2⟩ := hs
            subst e1
            refine ⟨?_, ?_⟩
            · intro v hv; have := h1 v hv; omega
            · intro o ho
              rcases List.mem_append.1 ho with ho | ho
              · have := h2 o ho; omega
              · rw [List.mem_singleton.1 ho]; omega
        · simp only [Option.some.injEq] at h
          subst h
          refine { I with none := ?_, ready := ?_ }
          · intro h; exact absurd rfl (h _ _)
          · intro hi' pos' hs
            simp only [Phase.ready.injEq] at hs
            obtain ⟨e1, e2⟩ := hs
            subst e1
            exact ⟨h1, h2⟩
      · cases h
    · cases h
  | commit k =>
    simp only [step] at h
    split at h
    · rename_i o ho
      simp only [Option.some.injEq] at h
      subst h
      have hom : o ∈ s.pend := List.mem_of_mem_take (List.mem_of_getLast? ho)
      have hsplit := List.take_append_drop k s.pend
      have hpw := I.pend
      rw [← hsplit, List.pairwise_append] at hpw
      have hrest : ∀ y ∈ s.pend.drop k, o < y := fun y hy => hpw.2.2 o (List.mem_of_getLast? ho) y hy
      constructor
      · show (s.log ++ [o + 1]).Pairwise _
        rw [List.pairwise_append]
        refine ⟨I.log, by simp, ?_⟩
        intro v hv y hy
        rw [List.mem_singleton.1 hy]
        have := I.above o hom v hv
        omega
      · exact hpw.2.1
      · intro y hy v hv
        rcases List.mem_append.1 hv with hv | hv
        · exact I.above y (List.mem_of_mem_drop hy) v hv
        · rw [List.mem_singleton.1 hv]; exact hrest y hy
      · intro hn
        have := I.none hn
        show s.pend.drop k = []
        rw [this]; simp
      · intro hi pos hs
        obtain ⟨h1, h2⟩ := I.ready hi pos hs
        refine ⟨?_, fun y hy => h2 y (List.mem_of_mem_drop hy)⟩
        intro v hv
        rcases List.mem_append.1 hv with hv | hv
        · exact h1 v hv
        · rw [List.mem_singleton.1 hv]
          have := h2 o hom
          omega
    · cases h
  | autocommit v =>
    simp only [step] at h
    split at h
    · cases h; exact { I with }
    · cases h
  | revoke =>
    simp only [step, Option.some.injEq] at h
    subst h
    exact ⟨I.log, by simp, by simp, fun _ => rfl, fun hi pos hs => by cases hs⟩
  | restart =>
    simp only [step, Option.some.injEq] at h
    subst h
    exact ⟨I.log, by simp, by simp, fun _ => rfl, fun hi pos hs => by cases hs⟩
  | foreign n =>
    simp only [step] at h
    split at h
    · cases h; exact { I with }
    · cases h

/-- A step adds to the log and to the committed records; what it adds to the latter is not below the former. -/
theorem new_step {c : Cfg} {s s' : S} {x : Act} (I : Up s) (h : step c s x = some s') :
    (∀ v ∈ s.log, v ∈ s'.log) ∧ (∀ o ∈ s.done, o ∈ s'.done) ∧ ∀ o ∈ s'.done, o ∈ s.done ∨ ∀ v ∈ s.log, v ≤ o := by
  by_cases hc : ∃ k, x = .commit k
  · obtain ⟨k, rfl⟩ := hc
    simp only [step] at h
    split at h
    · simp only [Option.some.injEq] at h
      subst h
      refine ⟨fun v hv => List.mem_append_left _ hv, fun o ho => List.mem_append_left _ ho, ?_⟩
      intro o ho
      rcases List.mem_append.1 ho with ho | ho
      · exact Or.inl ho
      · exact Or.inr (I.above o (List.mem_of_mem_take ho))
    · cases h
  · have : s'.log = s.log ∧ s'.done = s.done := by
      cases x <;> simp only [step] at h <;> (repeat' split at h) <;> (first | cases h; done | skip) <;>
        simp only [Option.some.injEq] at h <;> (try subst h) <;> first | exact ⟨rfl, rfl⟩ | skip
      exact absurd ⟨_, rfl⟩ hc
    rw [this.1, this.2]
    exact ⟨fun _ h => h, fun _ h => h, fun _ h => Or.inl h⟩

theorem new_run {c : Cfg} : ∀ (as : List Act) {s s' : S}, Up s → run c s as = some s' →
    Up s' ∧ (∀ v ∈ s.log, v ∈ s'.log) ∧ (∀ o ∈ s.done, o ∈ s'.done) ∧ ∀ o ∈ s'.done, o ∈ s.done ∨ ∀ v ∈ s.log, v ≤ o := by
  intro as
  induction as with
  | nil =>
    intro s s' I h
    cases h
    exact ⟨I, fun _ h => h, fun _ h => h, fun _ h => Or.inl h⟩
  | cons a as ih =>
    intro s s' I h
    simp only [run, Option.bind_eq_some_iff] at h
    obtain ⟨t, h1, h2⟩ := h
    obtain ⟨a1, a2, a3⟩ := new_step I h1
    obtain ⟨b0, b1, b2, b3⟩ := ih (up_step I h1) h2
    refine ⟨b0, fun v hv => b1 v (a1 v hv), fun o ho => b2 o (a2 o ho), ?_⟩
    intro o ho
    rcases b3 o ho with h | h
    · exact a3 o h
    · exact Or.inr fun v hv => h v (a1 v hv)

end Verif.Resume
