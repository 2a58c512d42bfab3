import Verif.Whole.Tidy
/-
Steps that can be seen to be tidy; used for the concrete runs of C97.
-/
set_option linter.unusedSimpArgs false
namespace Verif.Whole
open Verif.Eos (Ev Pool)
open Verif.Effects (Inc)
open Verif.Worker (PW It)

variable {c : Eos.Cfg} {ecap : Nat} {src : Nat → List Nat} {w w' : Group}

/-- The condition of `Tidy`, before the step. -/
def tidyB (w : Group) : Act → Bool
  | .assign _ tp _ => (List.range w.n).all fun k => !w.alive k || (List.range (w.nw k)).all fun j =>
      decide (w.part k j ≠ tp) || decide ((w.wks k j).wk = .stopped)
  | .ready k j wm => wm.toNat == w.newest (w.part k j)
  | _ => true

theorem tidy_same (h1 : w'.nw = w.nw) (h2 : ∀ k j, (w.wks k j).wk = .boot → (w'.wks k j).wk = .boot) : Tidy w w' where
  made := by intro k j a b; rw [h1] at b; omega
  read := fun k j a b => absurd (h2 k j a) b

theorem tidy_set {k j : Nat} {s : PW} (h : (w.wks k j).wk = .boot → s.wk = .boot) : Tidy w (w.set k j s) := by
  refine tidy_same rfl fun k' j' hb => ?_
  rw [set_wks]; split
  · rename_i hh; obtain ⟨rfl, rfl⟩ := hh; exact h hb
  · exact hb

theorem tidyB_tidy (B : Base c ecap src w) {a : Act} (h : tidyB w a = true) (hs : step c ecap src w a = some w') : Tidy w w' := by
  have hoff : ∀ {s s' : PW} {recs}, Worker.step (wcfg c ecap) s (.offer recs) = some s' → s'.wk = s.wk := by
    intro s s' recs h; simp only [Worker.step] at h; split at h <;> cases h; rfl
  have hasg : ∀ {s s' : PW} {r}, Worker.step (wcfg c ecap) s (.assign r) = some s' → s'.wk = s.wk := by
    intro s s' r h; simp only [Worker.step] at h; (repeat' split at h) <;> cases h <;> rfl
  cases a with
  | start => cases hs; exact tidy_same rfl fun _ _ h => h
  | crash k => simp only [step] at hs; split at hs <;> cases hs; exact tidy_same rfl fun _ _ h => h
  | assign k tp f =>
    simp only [step] at hs
    split at hs
    · cases hs
      refine ⟨?_, fun k' j' a b => absurd a b⟩
      intro k1 j1 a b k2 j2 ha hj hp
      have hk1 : k1 = k := by
        by_contra hne
        have : Eos.upd w.nw k (w.nw k + 1) k1 = w.nw k1 := upd_other _ _ hne
        change j1 < Eos.upd w.nw k (w.nw k + 1) k1 at b
        omega
      subst hk1
      have hj1 : j1 = w.nw k1 := by
        change j1 < Eos.upd w.nw k1 (w.nw k1 + 1) k1 at b
        rw [upd_self] at b; omega
      subst hj1
      change w.part k2 j2 = Eos.upd w.part k1 (Eos.upd (w.part k1) (w.nw k1) tp) k1 (w.nw k1) at hp
      rw [upd_self, upd_self] at hp
      simp only [tidyB, List.all_eq_true, List.mem_range] at h
      have hk2 : k2 < w.n := by
        simp only [Group.alive, Bool.and_eq_true, decide_eq_true_eq] at ha; exact ha.1
      have := h k2 hk2
      rw [ha] at this
      simp only [Bool.not_true, Bool.false_or, List.all_eq_true, List.mem_range] at this
      have := this j2 hj
      simpa [hp] using this
    · cases hs
  | revoke k tp =>
    simp only [step] at hs
    split at hs
    · split at hs
      · simp only [Worker.step, Option.map_some, Option.some.injEq] at hs
        subst hs
        rename_i j _
        exact tidy_same rfl (tidy_boot (k := k) (j := j) fun h => h)
      · cases hs
    · cases hs
  | fetch k j recs =>
    simp only [step] at hs
    split at hs
    · obtain ⟨s, h1, rfl⟩ := Option.map_eq_some_iff.1 hs
      exact tidy_set fun hb => by rw [hoff h1]; exact hb
    · cases hs
  | ready k j wm =>
    simp only [step] at hs
    split at hs
    · obtain ⟨s, h1, rfl⟩ := Option.map_eq_some_iff.1 hs
      simp only [Worker.step] at h1
      split at h1
      · cases h1
        refine ⟨by intro k' j' a b; change j' < w.nw k' at b; omega, fun k' j' a b => ?_⟩
        rw [set_wks] at b ⊢
        split
        · rename_i hh; obtain ⟨rfl, rfl⟩ := hh
          simpa [tidyB] using h
        · rename_i hh; rw [if_neg hh] at b; exact absurd a b
      · cases h1
    · cases hs
  | own k j l =>
    simp only [step] at hs
    split at hs
    · rename_i hc
      obtain ⟨s, h1, h2⟩ := Option.bind_eq_some_iff.1 hs
      have hb : (w.wks k j).wk = .boot → s.wk = .boot := (mild_own (B.wr k j) hc.2.2.1 h1).boot.2
      split at h2
      · cases h2; exact tidy_set hb
      · obtain ⟨p, _, rfl⟩ := Option.map_eq_some_iff.1 h2
        have := tidy_set (w := w) hb
        exact ⟨this.made, this.read⟩
    · cases hs
  | forward k j =>
    simp only [step] at hs
    split at hs
    · split at hs
      · split at hs
        · split at hs
          · obtain ⟨s, h1, rfl⟩ := Option.map_eq_some_iff.1 hs
            exact tidy_set fun hb => by rw [hasg h1]; exact hb
          · cases hs
        · obtain ⟨p, _, h2⟩ := Option.bind_eq_some_iff.1 hs
          obtain ⟨s, h1, rfl⟩ := Option.map_eq_some_iff.1 h2
          have := tidy_set (w := w) (k := k) (j := j) (s := s) fun hb => by rw [hasg h1]; exact hb
          exact ⟨this.made, this.read⟩
      · cases hs
    · cases hs
  | emit k j it v =>
    simp only [step] at hs
    split at hs
    · obtain ⟨p, _, rfl⟩ := Option.map_eq_some_iff.1 hs
      exact tidy_same rfl fun _ _ h => h
    · cases hs
  | wait k =>
    simp only [step] at hs
    split at hs
    · obtain ⟨p, _, rfl⟩ := Option.map_eq_some_iff.1 hs
      split
      · rename_i e _ _ _ _
        refine tidy_same rfl fun k' j' hb => ?_
        show (Eos.upd w.wks k (finalized (wcfg c ecap) (w.wks k) e) k' j').wk = _
        by_cases hk : k' = k
        · subst hk; rw [upd_self]; exact (upd_wk (w.wks k') (owner e) (.inr ⟨_, rfl⟩) j').trans hb
        · rw [upd_other _ _ hk]; exact hb
      · exact tidy_same rfl fun _ _ h => h
    · cases hs
  | endTxn k order =>
    simp only [step] at hs
    split at hs
    · obtain ⟨p, _, rfl⟩ := Option.map_eq_some_iff.1 hs
      split
      · refine tidy_same rfl fun k' j' hb => ?_
        show (Eos.upd w.wks k (rooted (wcfg c ecap) (w.wks k) _) k' j').wk = _
        by_cases hk : k' = k
        · subst hk; rw [upd_self, rooted_wk]; exact hb
        · rw [upd_other _ _ hk]; exact hb
      · exact tidy_same rfl fun _ _ h => h
    · cases hs
  | pool k l =>
    simp only [step] at hs
    split at hs
    · obtain ⟨p, _, rfl⟩ := Option.map_eq_some_iff.1 hs
      exact tidy_same rfl fun _ _ h => h
    · cases hs
where
  tidy_boot {k j : Nat} {s : PW} (h : (w.wks k j).wk = .boot → s.wk = .boot) (k' j' : Nat) (hb : (w.wks k' j').wk = .boot) :
      ((w.set k j s).wks k' j').wk = .boot := by
    rw [set_wks]; split
    · rename_i hh; obtain ⟨rfl, rfl⟩ := hh; exact h hb
    · exact hb

/-- A run of tidy steps. -/
def runB (c : Eos.Cfg) (ecap : Nat) (src : Nat → List Nat) (w : Group) : List Act → Option Group
  | [] => some w
  | a :: as => if tidyB w a then (step c ecap src w a).bind fun w' => runB c ecap src w' as else none

theorem runB_neat {as : List Act} (h : Neat c ecap src w) (hr : runB c ecap src w as = some w') : Neat c ecap src w' := by
  induction as generalizing w with
  | nil => cases hr; exact h
  | cons a as ih =>
    simp only [runB] at hr
    split at hr
    · rename_i ho
      obtain ⟨w1, h1, h2⟩ := Option.bind_eq_some_iff.1 hr
      exact ih (.step a h h1 (tidyB_tidy (base_reach h.reach) ho h1)) h2
    · cases hr

theorem run_reach {as : List Act} (h : Reach c ecap src w) (hr : run c ecap src w as = some w') : Reach c ecap src w' := by
  induction as generalizing w with
  | nil => cases hr; exact h
  | cons a as ih =>
    simp only [run, Option.bind_eq_some_iff] at hr
    obtain ⟨w1, h1, h2⟩ := hr
    exact ih (.step a h h1) h2

end Verif.Whole
