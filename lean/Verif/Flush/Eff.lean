import Verif.Flush.Steps
/-
What one step of the batcher does, for all steps.
-/
namespace Verif.Flush

open Verif.Batcher

set_option linter.unusedSectionVars false

variable {K : Type} [DecidableEq K]

/-- A step that changes executor `i` only. -/
theorem eff_other {s s' : State K} {l : Batcher.Label K} {j : Nat} (S : Str s) (hx : s'.execs j = s.execs j) (h1 : l ≠ .fire j) (h2 : l ≠ .flush j)
    (h3 : ∀ m, l ≠ .go j m) : Eff s s' l j := by
  refine ⟨fun hi => .inr (.inr ⟨h1, h2, by rw [hx]; exact .refl hi⟩), fun hi _ => ?_, fun _ he => absurd he.1 (h3 0)⟩
  rw [hx]
  exact ⟨hi, (S.eok j).untimed hi, rfl, rfl, fun h => h, .inr ⟨h2, rfl⟩, fun x hx => .inl hx⟩

/-- A step of a goroutine of executor `i` which is not its last one. -/
theorem eff_go {s s' : State K} {i : Nat} {p q : Phase K} (S : Str s) (he : (s.execs i).executing = true) (hg : (s.execs i).gos = [p])
    (hx : s'.execs = upd s.execs i { s.execs i with gos := [q] }) (hq : q ≠ .queued) (hp : p ≠ .nooping [])
    (hu : ∀ x, x ∈ (s.execs i).unfinished ∨ x ∈ (s.execs i).unnooped →
      (x ∈ ({ s.execs i with gos := [q] } : Exec K).unfinished ∨ x ∈ ({ s.execs i with gos := [q] } : Exec K).unnooped) ∨ x ∈ s'.done) (j : Nat) :
    Eff s s' (.go i 0) j := by
  by_cases hj : j = i
  · subst hj
    have hxj : s'.execs j = { s.execs j with gos := [q] } := by rw [hx]; exact upd_self _ _ _
    refine ⟨fun hi => (by rw [he] at hi; simp at hi), fun _ _ => ?_, fun _ h => ?_⟩
    · rw [hxj]
      refine ⟨he, (S.eok j).untimed he, rfl, rfl, fun h => ?_, .inr ⟨by simp, rfl⟩, hu⟩
      simp only [List.mem_singleton] at h
      exact absurd h.symm hq
    · have := h.2
      rw [hg] at this
      simp only [List.cons.injEq, and_true] at this
      exact absurd this hp
  · exact eff_other S (by rw [hx]; exact upd_ne _ _ hj) (by simp) (by simp) (by intro m; simp; omega)

/-- What a step does to the list of pending items. -/
def Pend (s s' : State K) (l : Batcher.Label K) : Prop :=
  s'.pending = s.pending ∨ (∃ t x r, l = .add t ∧ s.adders t = x :: r ∧ s'.pending = s.pending ++ [x]) ∨ (∃ i, Ends s l i ∧ s'.pending.Sublist s.pending)

theorem eff_step {s s' : State K} {l : Batcher.Label K} (G : Good s) (h : Batcher.step s l = some s') :
    (∀ i, Eff s s' l i) ∧ Pend s s' l ∧ (∀ k i, s.assign k = some i → ¬ Ends s l i → s'.assign k = some i) := by
  have S := G.1.str
  cases l with
  | call t b =>
    simp only [Batcher.step] at h
    split at h
    · simp only [Option.some.injEq] at h
      subst h
      exact ⟨fun i => eff_adds S (adds_congr rfl rfl rfl rfl rfl) (by simp) (by simp) (by simp [Ends]), .inl rfl, fun k i hk _ => hk⟩
    · simp at h
  | add t =>
    simp only [Batcher.step] at h
    split at h
    · simp at h
    · rename_i x r hx
      simp only [Option.some.injEq] at h
      subst h
      unfold addOne
      simp only
      cases he : execFor { { s with adders := upd s.adders t r } with added := s.added ++ [x] } x with
      | none =>
        simp only
        refine ⟨fun i => ?_, .inr (.inl ⟨t, x, r, rfl, hx, rfl⟩), fun k i hk _ => hk⟩
        exact eff_other S rfl (by simp) (by simp) (by simp)
      | some j =>
        simp only
        have A := adds_addTo he
        refine ⟨fun i => ?_, .inl ?_, fun k i hk _ => A.assign k i hk⟩
        · refine ⟨fun hi => .inr (.inr ⟨by simp, by simp, A.idle i hi⟩), fun hi _ => ?_, fun _ h => by simp [Ends] at h⟩
          rw [A.busy i hi]
          exact ⟨hi, (S.eok i).untimed hi, rfl, rfl, fun h => h, .inr ⟨by simp, rfl⟩, fun x hx => .inl hx⟩
        · rw [addTo_eq (execFor_idle he)]
  | fire i =>
    simp only [Batcher.step] at h
    split at h
    · rename_i ht
      simp only [Option.some.injEq] at h
      subst h
      refine ⟨fun j => ?_, .inl rfl, fun k i hk _ => hk⟩
      by_cases hj : j = i
      · subst hj
        have he : (s.execs j).executing = false := by
          by_contra hc
          have := (S.eok j).untimed (by simpa using hc)
          rw [ht] at this; simp at this
        refine ⟨fun _ => .inl ⟨rfl, ht, by simp [State.setE]⟩, fun hi => by rw [he] at hi; simp at hi, fun hi => by rw [he] at hi; simp at hi⟩
      · exact eff_other S (by simp only [State.setE]; exact upd_ne _ _ hj) (by simp; omega) (by simp) (by simp)
    · simp at h
  | flush i =>
    simp only [Batcher.step] at h
    split at h
    · simp at h
    · rename_i m hm
      simp only [Option.some.injEq] at h
      subst h
      have hpos : ∀ j, j ≠ i → (condExec (s.setE i { s.execs i with late := m }) i).execs j = s.execs j := by
        intro j hj
        unfold condExec
        split
        · simp only [State.setE]; exact upd_ne _ _ hj
        · simp only [State.setE]; rw [upd_ne _ _ hj, upd_ne _ _ hj]
      refine ⟨fun j => ?_, .inl ?_, fun k j hk _ => ?_⟩
      · by_cases hj : j = i
        · subst hj
          rcases Bool.eq_false_or_eq_true (s.execs j).executing with he | he
          rotate_left
          ·
            have hg := (S.eok j).idle he
            have hx : (condExec (s.setE j { s.execs j with late := m }) j).execs j =
                { s.execs j with late := m, executing := true, timer := .nil, gos := [.queued] } := by
              unfold condExec
              simp [State.setE, he, hg]
            refine ⟨fun _ => .inr (.inl ⟨rfl, ?_, ?_⟩), fun hi => by rw [he] at hi; simp at hi, fun hi => by rw [he] at hi; simp at hi⟩
            · rw [hx]; exact hm
            · rw [hx]
          · have hx : (condExec (s.setE j { s.execs j with late := m }) j).execs j = { s.execs j with late := m } := by
              unfold condExec
              simp [State.setE, he]
            refine ⟨fun hi => by rw [he] at hi; simp at hi, fun _ _ => ?_, fun _ h => by simp [Ends] at h⟩
            rw [hx]
            exact ⟨he, (S.eok j).untimed he, rfl, rfl, fun h => h, .inl ⟨rfl, hm⟩, fun x hx => .inl hx⟩
        · exact eff_other S (hpos j hj) (by simp) (by simp; omega) (by simp)
      · unfold condExec; split <;> rfl
      · unfold condExec; split <;> exact hk
  | go i j =>
    simp only [Batcher.step, Option.map_eq_some_iff] at h
    obtain ⟨p, hp, rfl⟩ := h
    obtain ⟨he, hg, hj, hok⟩ := the_go S hp
    subst hj
    have hset : ∀ q, (s.execs i).gos.set 0 q = [q] := by intro q; rw [hg]; rfl
    have main : p ≠ .nooping [] → (∃ q, q ≠ .queued ∧ (goStep s i 0 p).execs = upd s.execs i { s.execs i with gos := [q] } ∧
        ∀ x, x ∈ (s.execs i).unfinished ∨ x ∈ (s.execs i).unnooped →
          (x ∈ ({ s.execs i with gos := [q] } : Exec K).unfinished ∨ x ∈ ({ s.execs i with gos := [q] } : Exec K).unnooped) ∨ x ∈ (goStep s i 0 p).done) ∧
        (goStep s i 0 p).pending = s.pending ∧ (goStep s i 0 p).assign = s.assign := by
      intro hne
      cases p with
      | queued =>
        simp only [goStep]
        split
        · refine ⟨⟨.running, by simp, by simp [setGo, State.setE, hset], fun x hx => .inl ?_⟩, rfl, rfl⟩
          simpa [Exec.unfinished, Exec.unnooped, hg] using hx
        · rename_i hpos
          have h0 : (s.execs i).items = [] := List.eq_nil_of_length_eq_zero (by omega)
          refine ⟨⟨.nooping (s.execs i).noops, by simp, by simp [setGo, State.setE, hset], fun x hx => .inl ?_⟩, rfl, rfl⟩
          simpa [Exec.unfinished, Exec.unnooped, hg, h0] using hx
      | running =>
        simp only [goStep]
        refine ⟨⟨.completing (s.execs i).items, by simp, by simp [setGo, State.setE, hset], fun x hx => .inl ?_⟩, rfl, rfl⟩
        simpa [Exec.unfinished, Exec.unnooped, hg] using hx
      | completing r =>
        cases r with
        | nil =>
          simp only [goStep]
          refine ⟨⟨.nooping (s.execs i).noops, by simp, by simp [setGo, State.setE, hset], fun x hx => .inl ?_⟩, rfl, rfl⟩
          simpa [Exec.unfinished, Exec.unnooped, hg] using hx
        | cons y r =>
          simp only [goStep]
          refine ⟨⟨.completing r, by simp, by simp [setGo, State.setE, completeItem, hset], fun x hx => ?_⟩, rfl, rfl⟩
          simp only [Exec.unfinished, Exec.unnooped, hg, List.mem_cons] at hx
          simp only [Exec.unfinished, Exec.unnooped, setGo, State.setE, completeItem, List.mem_append, List.mem_singleton]
          rcases hx with (hx | hx) | hx
          · exact .inr (.inr hx)
          · exact .inl (.inl hx)
          · exact .inl (.inr hx)
      | nooping r =>
        cases r with
        | nil => exact absurd rfl hne
        | cons y r =>
          simp only [goStep]
          refine ⟨⟨.nooping r, by simp, by simp [setGo, State.setE, completeNoop, hset], fun x hx => ?_⟩, rfl, rfl⟩
          simp only [Exec.unfinished, Exec.unnooped, hg, List.mem_cons, List.not_mem_nil, false_or] at hx
          simp only [Exec.unfinished, Exec.unnooped, setGo, State.setE, completeNoop, List.mem_append, List.mem_singleton]
          rcases hx with hx | hx
          · exact .inr (.inr hx)
          · exact .inl (.inr hx)
    by_cases hne : p = .nooping []
    · subst hne
      have hE : Ends s (.go i 0) i := ⟨rfl, hg⟩
      have herase : (s.execs i).gos.eraseIdx 0 = [] := by rw [hg]; rfl
      simp only [goStep, finish, herase]
      set s0 : State K := reset { s with count := s.count - 1, execs := upd s.execs i { s.execs i with gos := [] } } i with hs0
      have hx0 : s0.execs i = cleared (s.execs i) := by simp [hs0, reset, cleared]
      have hxo : ∀ j, j ≠ i → s0.execs j = s.execs j := by
        intro j hj
        simp only [hs0, reset]
        rw [upd_ne _ _ hj, upd_ne _ _ hj]
      have hp0 : s0.pending = s.pending := rfl
      have hA : Adds s0 (flushPending s0) ∧ (flushPending s0).pending.Sublist s.pending := by
        unfold flushPending
        split
        · exact ⟨.refl _, by rw [hp0]⟩
        · have := adds_flushLoop s0 [] s0.pending
          rw [List.nil_append, hp0] at this
          rw [hp0]
          exact this
      refine ⟨fun j => ?_, .inr (.inr ⟨i, hE, hA.2⟩), fun k j hk hj => ?_⟩
      · by_cases hj : j = i
        · subst hj
          refine ⟨fun hi => by rw [he] at hi; simp at hi, fun _ h => absurd hE h, fun _ _ => ?_⟩
          have := hA.1.idle j (by rw [hx0]; rfl)
          rw [hx0] at this
          exact this
        · have hji : ¬ Ends s (.go i 0) j := fun h => by have := h.1; simp at this; omega
          refine ⟨fun hi => .inr (.inr ⟨by simp, by simp, ?_⟩), fun hi _ => ?_, fun _ h => absurd h hji⟩
          · have := hA.1.idle j (by rw [hxo j hj]; exact hi)
            rw [hxo j hj] at this
            exact this
          · rw [hA.1.busy j (by rw [hxo j hj]; exact hi), hxo j hj]
            exact ⟨hi, (S.eok j).untimed hi, rfl, rfl, fun h => h, .inr ⟨by simp, rfl⟩, fun x hx => .inl hx⟩
      · have hij : i ≠ j := by rintro rfl; exact hj hE
        apply hA.1.assign
        simp only [hs0, reset, upd_self]
        rw [if_neg]
        · exact hk
        · intro hm
          obtain ⟨x, hx, hxk⟩ := List.mem_map.1 hm
          have := S.locI i x hx
          rw [hxk, hk] at this
          simp only [Option.some.injEq] at this
          exact hij this.symm
    · obtain ⟨⟨q, hq, hx, hu⟩, hpend, hasg⟩ := main hne
      exact ⟨fun j => eff_go S he hg hx hq hne hu j, .inl hpend, fun k j hk _ => by rw [hasg]; exact hk⟩

end Verif.Flush
