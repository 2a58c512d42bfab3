import Verif.Serial.Shape
/-
The bookkeeping holds in all reachable states.
-/
namespace Verif.Serial
open Verif.Eos (upd)

/-- What `add` does to the state, spelled out. -/
theorem enqueue_cases (s : St) (j w : Nat) (full : Bool) :
    ∃ s1 X hd q, (s1 = s ∨ (s.head w = none ∧ s1 = fill s w)) ∧
      enqueue s j w full = { s1 with head := hd, q := q, jst := upd s1.jst j X } ∧
      ((X = .head w ∧ s1.head w = none ∧ hd = upd s1.head w (some j) ∧ q = s1.q) ∨ (X = .wait w ∧ hd = s1.head ∧ q = s1.q) ∨ (X = .chan w ∧ hd = s1.head ∧ q = upd s1.q w (s1.q w ++ [j]))) := by
  have go : ∀ s1 : St, (s1 = s ∨ (s.head w = none ∧ s1 = fill s w)) → (if s.head w = none then fill s w else s) = s1 →
      ∃ s1 X hd q, (s1 = s ∨ (s.head w = none ∧ s1 = fill s w)) ∧ enqueue s j w full = { s1 with head := hd, q := q, jst := upd s1.jst j X } ∧
        ((X = .head w ∧ s1.head w = none ∧ hd = upd s1.head w (some j) ∧ q = s1.q) ∨ (X = .wait w ∧ hd = s1.head ∧ q = s1.q) ∨ (X = .chan w ∧ hd = s1.head ∧ q = upd s1.q w (s1.q w ++ [j]))) := by
    intro s1 h1 h2
    simp only [enqueue, h2]
    by_cases hh : s1.head w = none
    · exact ⟨s1, .head w, _, _, h1, by rw [if_pos hh], .inl ⟨rfl, hh, rfl, rfl⟩⟩
    · cases full with
      | true => exact ⟨s1, .wait w, _, _, h1, by rw [if_neg hh]; rfl, .inr (.inl ⟨rfl, rfl, rfl⟩)⟩
      | false => exact ⟨s1, .chan w, _, _, h1, by rw [if_neg hh]; rfl, .inr (.inr ⟨rfl, rfl, rfl⟩)⟩
  by_cases hh : s.head w = none
  · exact go (fill s w) (.inr ⟨hh, rfl⟩) (by rw [if_pos hh])
  · exact go s (.inl rfl) (by rw [if_neg hh])

/-- What `fill` leaves alone. -/
theorem fill_rest (s : St) (w : Nat) : (fill s w).tr = s.tr ∧ (fill s w).jobs = s.jobs ∧ (fill s w).jk = s.jk ∧ (fill s w).own = s.own ∧ (fill s w).map = s.map ∧ (fill s w).wkey = s.wkey ∧ (fill s w).mem = s.mem ∧ (fill s w).wst = s.wst ∧
    (fill s w).ph = s.ph ∧ (fill s w).sends = s.sends := by
  unfold fill
  cases s.q w <;> exact ⟨rfl, rfl, rfl, rfl, rfl, rfl, rfl, rfl, rfl, rfl⟩

theorem fill_jst {s : St} (I : SI s) (w : Nat) {j : Nat} (h : ∀ w, s.jst j ≠ .chan w) : (fill s w).jst j = s.jst j := by
  unfold fill
  cases hq : s.q w with
  | nil => rfl
  | cons j' q =>
    simp only []
    rw [upd_ne]
    intro h2
    subst h2
    exact h w (I.e w j (by rw [hq]; simp)).1

theorem grab_some {s : St} {k w0 w : Nat} (h : grab s k w0 = some w) : s.map k = some w ∨ (s.map k = none ∧ s.wst w = .free) := by
  unfold grab at h
  split at h
  · rename_i h1; cases h; exact .inl h1
  · rename_i h1
    split at h
    · rename_i h2; cases h; exact .inr ⟨h1, h2⟩
    · cases h

/-- The job that is being processed leaves the queue. -/
theorem SI.pop {s : St} (I : SI s) {w j : Nat} (hp : s.ph w = .busy j) (hw : ∃ g, s.wst w = .held g) : SI { s with head := upd s.head w none, mem := upd s.mem w ((s.mem w).erase j), ph := upd s.ph w (.adv j) } := by
  obtain ⟨a1, a2, c1, c2, d, e, f, i, p, h, nd, r, jn⟩ := I
  have hj := f w j hp
  have hm := (d w j hj.1).1
  obtain ⟨g, hg⟩ := hw
  have hmem : ∀ w' j', j' ≠ j → j' ∈ s.mem w' → j' ∈ upd s.mem w ((s.mem w).erase j) w' := by
    intro w' j' hjj hh
    by_cases hww : w' = w
    · subst hww; rw [upd_same]; exact (List.mem_erase_of_ne hjj).mpr hh
    · rw [upd_ne _ _ hww]; exact hh
  refine ⟨a1, a2, fun w' j' hh => ?_, fun w' hh => ?_, fun w' j' hh => ?_, fun w' j' hh => ?_, fun w' j' hh => ?_, fun w' j' hh => ?_, fun w' j' hh => ?_, fun w' j' hh => ?_, nd, fun w' hh => ?_, jn⟩
  · simp only [] at hh ⊢
    by_cases hww : w' = w
    · subst hww; rw [upd_same] at hh; exact c1 w' j' (List.mem_of_mem_erase hh)
    · rw [upd_ne _ _ hww] at hh; exact c1 w' j' hh
  · simp only [] at hh ⊢
    rw [upd_ne _ _ (by intro h2; subst h2; rw [hg] at hh; cases hh)]; exact c2 w' hh
  · simp only [] at hh ⊢
    by_cases hww : w' = w
    · subst hww; rw [upd_same] at hh; cases hh
    · rw [upd_ne _ _ hww] at hh
      have h1 := d w' j' hh
      have hjj : j' ≠ j := by
        intro h2; subst h2
        rw [hj.2] at h1
        rcases h1.2 with h3 | h3
        · cases h3
        · cases h3.1; exact hww rfl
      rw [upd_ne s.ph _ hww]
      exact ⟨hmem _ _ hjj h1.1, h1.2⟩
  · simp only [] at hh ⊢
    have h1 := e w' j' hh
    exact ⟨h1.1, hmem _ _ (fun h2 => by subst h2; rw [hj.2] at h1; cases h1.1) h1.2⟩
  · simp only [] at hh ⊢
    by_cases hww : w' = w
    · subst hww; rw [upd_same] at hh; cases hh
    · rw [upd_ne _ _ hww] at hh ⊢; exact f w' j' hh
  · simp only [] at hh ⊢
    by_cases hww : w' = w
    · subst hww; rw [upd_same] at hh; cases hh; exact hj.2
    · rw [upd_ne _ _ hww] at hh; exact i w' j' hh
  · simp only [] at hh ⊢
    by_cases hww : w' = w
    · subst hww
      rw [upd_same]
      have := p w' j' hh
      rw [hp] at this
      rcases this with h1 | h1
      · cases h1; exact .inr rfl
      · cases h1
    · rw [upd_ne _ _ hww]; exact p w' j' hh
  · simp only [] at hh ⊢
    have h1 := h w' j' hh
    exact hmem _ _ (fun h2 => by subst h2; rw [hj.2] at hh; cases hh) h1
  · simp only [] at hh ⊢
    rw [upd_ne _ _ (by intro h2; subst h2; exact hh g hg)]; exact r w' hh

theorem pop_fill {s : St} {w j : Nat} : ({ fill s w with mem := upd s.mem w ((s.mem w).erase j), ph := upd s.ph w (.adv j) } : St) = fill { s with head := upd s.head w none, mem := upd s.mem w ((s.mem w).erase j), ph := upd s.ph w (.adv j) } w := by
  unfold fill
  cases hq : s.q w with
  | nil => simp only [upd_upd]
  | cons j' q => simp only [upd_upd]

theorem si_step {s s' : St} {x : Act} (I : SI s) (hstep : step s x = some s') : SI s' := by
  cases x with
  | make p' k =>
    simp only [step, Option.some.injEq] at hstep
    subst hstep
    obtain ⟨a1, a2, c1, c2, d, e, f, i, p, h, nd, r, jn⟩ := I
    have ism : upd s.jst s.jobs .new = s.jst := upd_eta _ _ (jn _ (Nat.le_refl _))
    rw [ism]
    refine ⟨a1, a2, fun w j hh => ?_, c2, d, e, f, i, p, h, nd, r, fun j hh => jn j (by simp only [] at hh; omega)⟩
    have := c1 w j hh
    simp only []
    rw [upd_ne _ _ (by omega)]
    exact ⟨this.1, by omega⟩
  | add j w0 full =>
    simp only [step] at hstep
    split at hstep
    · rename_i hc
      simp only [Option.map_eq_some_iff] at hstep
      obtain ⟨w, hw, rfl⟩ := hstep
      have hw := grab_some hw
      obtain ⟨s1, X, hd, q, h1, h2, h3⟩ := enqueue_cases s j w full
      rw [h2]
      rcases h1 with rfl | ⟨h0, rfl⟩
      · exact I.insert hc.1 hc.2 (.work (s1.own j)) hw _ X hd q h3
      · have J := I.fill h0
        obtain ⟨r1, r2, r3, r4, r5, r6, r7, r8, r9, r10⟩ := fill_rest s w
        have := J.insert (j := j) (w := w) (by rw [r2]; exact hc.1) (by rw [fill_jst I w (by rw [hc.2]; simp)]; exact hc.2) (.work (s.own j)) (by rw [r3, r5, r8]; exact hw) s.tr X hd q h3
        rw [r3, r5, r6, r7, r8] at this
        simp only [r3]
        exact this.quiet _
    · cases hstep
  | block j =>
    simp only [step] at hstep
    split at hstep
    · rename_i w hj
      split at hstep
      · rename_i hlt
        simp only [Option.some.injEq] at hstep
        subst hstep
        obtain ⟨a1, a2, c1, c2, d, e, f, i, p, h, nd, r, jn⟩ := I
        have hm := h w j hj
        have nq : ∀ w', j ∉ s.q w' := fun w' hh => by
          have := (e w' j hh).1
          rw [hj] at this; cases this
        refine ⟨a1, a2, c1, c2, fun w' j' hh => ?_, fun w' j' hh => ?_, fun w' j' hh => ?_, fun w' j' hh => ?_, fun w' j' hh => ?_, fun w' j' hh => ?_, fun w' => ?_, r, fun j' hh => ?_⟩
        · have h1 := d w' j' hh
          simp only []
          rw [upd_ne _ _ (by intro h2; subst h2; rw [hj] at h1; rcases h1.2 with h3 | h3; cases h3; cases h3.1)]
          exact h1
        · simp only [] at hh ⊢
          by_cases hjj : j' = j
          · subst hjj
            by_cases hww : w' = w
            · subst hww; exact ⟨upd_same .., hm⟩
            · rw [upd_ne _ _ hww] at hh; exact absurd hh (nq w')
          · rw [upd_ne _ _ hjj]
            by_cases hww : w' = w
            · subst hww; rw [upd_same] at hh; exact e w' j' (by simpa [hjj] using hh)
            · rw [upd_ne _ _ hww] at hh; exact e w' j' hh
        · have h1 := f w' j' hh
          simp only []
          rw [upd_ne _ _ (by intro h2; subst h2; rw [hj] at h1; cases h1.2)]
          exact h1
        · have h1 := i w' j' hh
          simp only []
          rw [upd_ne _ _ (by intro h2; subst h2; rw [hj] at h1; cases h1)]
          exact h1
        · simp only [] at hh ⊢
          by_cases hjj : j' = j
          · subst hjj; rw [upd_same] at hh; cases hh
          · rw [upd_ne _ _ hjj] at hh; exact p w' j' hh
        · simp only [] at hh ⊢
          by_cases hjj : j' = j
          · subst hjj; rw [upd_same] at hh; cases hh
          · rw [upd_ne _ _ hjj] at hh; exact h w' j' hh
        · simp only []
          by_cases hww : w' = w
          · subst hww
            rw [upd_same]
            refine List.nodup_append.mpr ⟨nd w', List.nodup_singleton _, ?_⟩
            intro a ha b hb hab
            rw [List.mem_singleton] at hb
            subst hab; subst hb
            exact nq w' ha
          · rw [upd_ne _ _ hww]; exact nd w'
        · simp only [] at hh ⊢
          rw [upd_ne _ _ (by omega)]; exact jn j' hh
      · cases hstep
    · cases hstep
  | enq w =>
    simp only [step] at hstep
    split at hstep
    · rename_i g hg
      simp only [Option.some.injEq] at hstep
      subst hstep
      obtain ⟨a1, a2, c1, c2, d, e, f, i, p, h, nd, r, jn⟩ := I
      have fre : ∀ w', upd s.wst w (.chan s.sends) w' = .free ↔ s.wst w' = .free := by
        intro w'
        by_cases hww : w' = w
        · subst hww; rw [upd_same, hg]; simp
        · rw [upd_ne _ _ hww]
      refine ⟨fun k w' hh => ⟨(a1 k w' hh).1, fun h2 => (a1 k w' hh).2 ((fre w').mp h2)⟩, fun w' hh => a2 w' fun h2 => hh ((fre w').mpr h2), c1, fun w' hh => c2 w' ((fre w').mp hh), d, e, f, i, p, h, nd, fun w' hh => ?_, jn⟩
      simp only [] at hh
      by_cases hww : w' = w
      · subst hww; exact r w' (by rw [hg]; simp)
      · rw [upd_ne _ _ hww] at hh; exact r w' hh
    · cases hstep
  | take g w =>
    simp only [step] at hstep
    split at hstep
    · rename_i n hn
      simp only [Option.some.injEq] at hstep
      subst hstep
      obtain ⟨a1, a2, c1, c2, d, e, f, i, p, h, nd, r, jn⟩ := I
      have fre : ∀ w', upd s.wst w (.held g) w' = .free ↔ s.wst w' = .free := by
        intro w'
        by_cases hww : w' = w
        · subst hww; rw [upd_same, hn]; simp
        · rw [upd_ne _ _ hww]
      refine ⟨fun k w' hh => ⟨(a1 k w' hh).1, fun h2 => (a1 k w' hh).2 ((fre w').mp h2)⟩, fun w' hh => a2 w' fun h2 => hh ((fre w').mpr h2), c1, fun w' hh => c2 w' ((fre w').mp hh), d, e, f, i, p, h, nd, fun w' hh => ?_, jn⟩
      simp only [] at hh
      by_cases hww : w' = w
      · subst hww; rw [upd_same] at hh; exact absurd rfl (hh g)
      · rw [upd_ne _ _ hww] at hh; exact r w' hh
    · cases hstep
  | peek w =>
    simp only [step] at hstep
    split at hstep
    · rename_i g hg hp
      have noproc : ∀ j, s.jst j ≠ .proc w := fun j h2 => by
        have := I.p w j h2
        rw [hp] at this
        rcases this with h | h <;> cases h
      obtain ⟨a1, a2, c1, c2, d, e, f, i, p, h, nd, r, jn⟩ := I
      split at hstep
      · rename_i j hj
        simp only [Option.some.injEq] at hstep
        subst hstep
        have hd := d w j hj
        have hjs : s.jst j = .head w := by
          rcases hd.2 with h1 | h1
          · exact h1
          · exact absurd h1.1 (noproc j)
        refine ⟨a1, a2, c1, c2, fun w' j' hh => ?_, fun w' j' hh => ?_, fun w' j' hh => ?_, fun w' j' hh => ?_, fun w' j' hh => ?_, fun w' j' hh => ?_, nd, fun w' hh => ?_, fun j' hh => ?_⟩
        · simp only [] at hh ⊢
          by_cases hww : w' = w
          · subst hww; rw [hj] at hh; cases hh; rw [upd_same, upd_same]; exact ⟨hd.1, .inr ⟨rfl, rfl⟩⟩
          · have h1 := d w' j' hh
            rw [upd_ne s.ph _ hww, upd_ne _ _ (by intro h2; subst h2; rw [hjs] at h1; rcases h1.2 with h3 | h3; cases h3; exact hww rfl; cases h3.1)]
            exact h1
        · have h1 := e w' j' hh
          simp only []
          rw [upd_ne _ _ (by intro h2; subst h2; rw [hjs] at h1; cases h1.1)]
          exact h1
        · simp only [] at hh ⊢
          by_cases hww : w' = w
          · subst hww; rw [upd_same] at hh; cases hh; exact ⟨hj, upd_same ..⟩
          · rw [upd_ne _ _ hww] at hh
            have h1 := f w' j' hh
            rw [upd_ne _ _ (by intro h2; subst h2; rw [hjs] at h1; cases h1.2)]
            exact h1
        · simp only [] at hh ⊢
          by_cases hww : w' = w
          · subst hww; rw [upd_same] at hh; cases hh
          · rw [upd_ne _ _ hww] at hh
            have h1 := i w' j' hh
            rw [upd_ne _ _ (by intro h2; subst h2; rw [hjs] at h1; cases h1)]
            exact h1
        · simp only [] at hh ⊢
          by_cases hjj : j' = j
          · subst hjj; rw [upd_same] at hh; cases hh; rw [upd_same]; exact .inl rfl
          · rw [upd_ne _ _ hjj] at hh
            rw [upd_ne _ _ (by intro h2; subst h2; exact noproc j' hh)]
            exact p w' j' hh
        · simp only [] at hh ⊢
          by_cases hjj : j' = j
          · subst hjj; rw [upd_same] at hh; cases hh
          · rw [upd_ne _ _ hjj] at hh; exact h w' j' hh
        · simp only [] at hh ⊢
          rw [upd_ne _ _ (by intro h2; subst h2; exact hh g hg)]; exact r w' hh
        · simp only [] at hh ⊢
          have := (c1 w j hd.1).2
          rw [upd_ne _ _ (by omega)]; exact jn j' hh
      · rename_i hj
        simp only [Option.some.injEq] at hstep
        subst hstep
        refine ⟨a1, a2, c1, c2, fun w' j' hh => ?_, e, fun w' j' hh => ?_, fun w' j' hh => ?_, fun w' j' hh => ?_, h, nd, fun w' hh => ?_, jn⟩
        · simp only [] at hh ⊢
          rw [upd_ne _ _ (by intro h2; subst h2; rw [hj] at hh; cases hh)]
          exact d w' j' hh
        · simp only [] at hh ⊢
          by_cases hww : w' = w
          · subst hww; rw [upd_same] at hh; cases hh
          · rw [upd_ne _ _ hww] at hh; exact f w' j' hh
        · simp only [] at hh ⊢
          by_cases hww : w' = w
          · subst hww; rw [upd_same] at hh; cases hh
          · rw [upd_ne _ _ hww] at hh; exact i w' j' hh
        · simp only [] at hh ⊢
          rw [upd_ne _ _ (by intro h2; subst h2; exact noproc j' hh)]
          exact p w' j' hh
        · simp only [] at hh ⊢
          rw [upd_ne _ _ (by intro h2; subst h2; exact hh g hg)]; exact r w' hh
    · cases hstep
  | proc w =>
    simp only [step] at hstep
    split at hstep
    · simp only [Option.some.injEq] at hstep; subst hstep; exact I.quiet _
    · cases hstep
  | adv w =>
    simp only [step] at hstep
    split at hstep
    · rename_i g j hg hp
      simp only [Option.some.injEq] at hstep
      subst hstep
      have := ((I.pop hp ⟨g, hg⟩).fill (w := w) (upd_same ..))
      rw [← pop_fill] at this
      exact this.quiet _
    · cases hstep
  | comp w =>
    simp only [step] at hstep
    split at hstep
    · rename_i g j hg hp
      simp only [Option.some.injEq] at hstep
      subst hstep
      obtain ⟨a1, a2, c1, c2, d, e, f, i, p, h, nd, r, jn⟩ := I
      have hj := i w j hp
      refine ⟨a1, a2, c1, c2, fun w' j' hh => ?_, fun w' j' hh => ?_, fun w' j' hh => ?_, fun w' j' hh => ?_, fun w' j' hh => ?_, fun w' j' hh => ?_, nd, fun w' hh => ?_, fun j' hh => ?_⟩
      · have h1 := d w' j' hh
        simp only []
        have hjj : j' ≠ j := by
          intro h2; subst h2
          rw [hj] at h1
          rcases h1.2 with h3 | h3
          · cases h3
          · obtain ⟨h4, h5⟩ := h3; cases h4; rw [hp] at h5; cases h5
        rw [upd_ne _ _ hjj]
        refine ⟨h1.1, h1.2.imp id fun h3 => ⟨h3.1, ?_⟩⟩
        rw [upd_ne _ _ (by intro h2; subst h2; rw [hp] at h3; cases h3.2)]
        exact h3.2
      · have h1 := e w' j' hh
        simp only []
        rw [upd_ne _ _ (by intro h2; subst h2; rw [hj] at h1; cases h1.1)]
        exact h1
      · simp only [] at hh ⊢
        by_cases hww : w' = w
        · subst hww; rw [upd_same] at hh; cases hh
        · rw [upd_ne _ _ hww] at hh
          have h1 := f w' j' hh
          rw [upd_ne _ _ (by intro h2; subst h2; rw [hj] at h1; cases h1.2; exact hww rfl)]
          exact h1
      · simp only [] at hh ⊢
        by_cases hww : w' = w
        · subst hww; rw [upd_same] at hh; cases hh
        · rw [upd_ne _ _ hww] at hh
          have h1 := i w' j' hh
          rw [upd_ne _ _ (by intro h2; subst h2; rw [hj] at h1; cases h1; exact hww rfl)]
          exact h1
      · simp only [] at hh ⊢
        by_cases hjj : j' = j
        · subst hjj; rw [upd_same] at hh; cases hh
        · rw [upd_ne _ _ hjj] at hh
          have h1 := p w' j' hh
          rw [upd_ne _ _ (by intro h2; subst h2; rw [hp] at h1; rcases h1 with h3 | h3; cases h3; cases h3; exact hjj rfl)]
          exact h1
      · simp only [] at hh ⊢
        by_cases hjj : j' = j
        · subst hjj; rw [upd_same] at hh; cases hh
        · rw [upd_ne _ _ hjj] at hh; exact h w' j' hh
      · simp only [] at hh ⊢
        rw [upd_ne _ _ (by intro h2; subst h2; exact hh g hg)]; exact r w' hh
      · simp only [] at hh ⊢
        rw [upd_ne _ _ (by intro h2; subst h2; rw [jn _ hh] at hj; cases hj)]; exact jn j' hh
    · cases hstep
  | rel w =>
    simp only [step] at hstep
    split at hstep
    · rename_i g hg hp
      obtain ⟨a1, a2, c1, c2, d, e, f, i, p, h, nd, r, jn⟩ := I
      have noproc : ∀ j, s.jst j ≠ .proc w := fun j h2 => by
        have := p w j h2
        rw [hp] at this
        rcases this with h | h <;> cases h
      have d' : ∀ w' j', s.head w' = some j' → j' ∈ s.mem w' ∧ (s.jst j' = .head w' ∨ (s.jst j' = .proc w' ∧ upd s.ph w .took w' = .busy j')) := by
        intro w' j' hh
        have h1 := d w' j' hh
        refine ⟨h1.1, h1.2.imp id fun h3 => ⟨h3.1, ?_⟩⟩
        rw [upd_ne _ _ (by intro h2; subst h2; exact noproc j' h3.1)]
        exact h3.2
      have f' : ∀ w' j', upd s.ph w .took w' = .busy j' → s.head w' = some j' ∧ s.jst j' = .proc w' := by
        intro w' j' hh
        by_cases hww : w' = w
        · subst hww; rw [upd_same] at hh; cases hh
        · rw [upd_ne _ _ hww] at hh; exact f w' j' hh
      have i' : ∀ w' j', upd s.ph w .took w' = .adv j' → s.jst j' = .proc w' := by
        intro w' j' hh
        by_cases hww : w' = w
        · subst hww; rw [upd_same] at hh; cases hh
        · rw [upd_ne _ _ hww] at hh; exact i w' j' hh
      have p' : ∀ w' j', s.jst j' = .proc w' → upd s.ph w .took w' = .busy j' ∨ upd s.ph w .took w' = .adv j' := by
        intro w' j' hh
        rw [upd_ne _ _ (by intro h2; subst h2; exact noproc j' hh)]
        exact p w' j' hh
      have r' : ∀ st w', (∀ g', upd s.wst w st w' ≠ .held g') → upd s.ph w .took w' = .took := by
        intro st w' hh
        by_cases hww : w' = w
        · subst hww; rw [upd_same]
        · rw [upd_ne _ _ hww] at hh ⊢; exact r w' hh
      split at hstep
      · rename_i hm
        simp only [Option.some.injEq] at hstep
        subst hstep
        refine ⟨fun k w' hh => ?_, fun w' hh => ?_, c1, fun w' hh => ?_, d', e, f', i', p', h, nd, r' _, jn⟩
        · simp only [] at hh ⊢
          by_cases hk : k = s.wkey w
          · subst hk; rw [upd_same] at hh; cases hh
          · rw [upd_ne _ _ hk] at hh
            have h1 := a1 k w' hh
            rw [upd_ne s.wst _ (by intro h2; subst h2; exact hk h1.1.symm)]
            exact h1
        · simp only [] at hh ⊢
          by_cases hww : w' = w
          · subst hww; rw [upd_same] at hh; exact absurd rfl hh
          · rw [upd_ne _ _ hww] at hh
            have h1 := a2 w' hh
            rw [upd_ne _ _ (by intro h2; rw [h2, a2 w (by rw [hg]; simp)] at h1; cases h1; exact hww rfl)]
            exact h1
        · simp only [] at hh ⊢
          by_cases hww : w' = w
          · subst hww; simpa using hm
          · rw [upd_ne _ _ hww] at hh; exact c2 w' hh
      · simp only [Option.some.injEq] at hstep
        subst hstep
        have fre : ∀ w', upd s.wst w (.give (.pool g)) w' = .free ↔ s.wst w' = .free := by
          intro w'
          by_cases hww : w' = w
          · subst hww; rw [upd_same, hg]; simp
          · rw [upd_ne _ _ hww]
        exact ⟨fun k w' hh => ⟨(a1 k w' hh).1, fun h2 => (a1 k w' hh).2 ((fre w').mp h2)⟩, fun w' hh => a2 w' fun h2 => hh ((fre w').mpr h2), c1, fun w' hh => c2 w' ((fre w').mp hh), d', e, f', i', p', h, nd, r' _, jn⟩
    · cases hstep
  | fin j =>
    simp only [step] at hstep
    split at hstep
    · rename_i hc
      simp only [Option.some.injEq] at hstep
      subst hstep
      obtain ⟨a1, a2, c1, c2, d, e, f, i, p, h, nd, r, jn⟩ := I
      have hj := hc.2
      refine ⟨a1, a2, c1, c2, fun w' j' hh => ?_, fun w' j' hh => ?_, fun w' j' hh => ?_, fun w' j' hh => ?_, fun w' j' hh => ?_, fun w' j' hh => ?_, nd, r, fun j' hh => ?_⟩
      · have h1 := d w' j' hh
        simp only []
        rw [upd_ne _ _ (by intro h2; subst h2; rw [hj] at h1; rcases h1.2 with h3 | h3; cases h3; cases h3.1)]
        exact h1
      · have h1 := e w' j' hh
        simp only []
        rw [upd_ne _ _ (by intro h2; subst h2; rw [hj] at h1; cases h1.1)]
        exact h1
      · have h1 := f w' j' hh
        simp only []
        rw [upd_ne _ _ (by intro h2; subst h2; rw [hj] at h1; cases h1.2)]
        exact h1
      · have h1 := i w' j' hh
        simp only []
        rw [upd_ne _ _ (by intro h2; subst h2; rw [hj] at h1; cases h1)]
        exact h1
      · simp only [] at hh ⊢
        by_cases hjj : j' = j
        · subst hjj; rw [upd_same] at hh; cases hh
        · rw [upd_ne _ _ hjj] at hh; exact p w' j' hh
      · simp only [] at hh ⊢
        by_cases hjj : j' = j
        · subst hjj; rw [upd_same] at hh; cases hh
        · rw [upd_ne _ _ hjj] at hh; exact h w' j' hh
      · simp only [] at hh ⊢
        rw [upd_ne _ _ (by omega)]; exact jn j' hh
    · cases hstep
  | use j =>
    simp only [step] at hstep
    split at hstep
    · simp only [Option.some.injEq] at hstep; subst hstep; exact I.quiet _
    · cases hstep

theorem si_reach {s : St} (hs : Reach s) : SI s := by
  induction hs with
  | init => exact si_init
  | step x _ h ih => exact si_step ih h

end Verif.Serial
