import Verif.Serial.Flow
/-
The bookkeeping of jobs, queues and workers of the scheduler.
-/
namespace Verif.Serial
open Verif.Eos (upd)

theorem upd_same {α : Type} (f : Nat → α) (i : Nat) (x : α) : upd f i x i = x := by simp [upd]

theorem upd_ne {α : Type} (f : Nat → α) {i j : Nat} (x : α) (h : j ≠ i) : upd f i x j = f j := by simp [upd, h]

theorem upd_eta {α : Type} (f : Nat → α) (i : Nat) {x : α} (h : f i = x) : upd f i x = f := by
  funext j
  by_cases hj : j = i
  · rw [hj, upd_same, h]
  · rw [upd_ne _ _ hj]

theorem upd_upd {α : Type} (f : Nat → α) (i : Nat) (x y : α) : upd (upd f i x) i y = upd f i y := by
  funext j
  by_cases hj : j = i
  · rw [hj, upd_same, upd_same]
  · rw [upd_ne _ _ hj, upd_ne _ _ hj, upd_ne _ _ hj]

/-- Where everything is. -/
structure SI (s : St) : Prop where
  a1 : ∀ k w, s.map k = some w → s.wkey w = k ∧ s.wst w ≠ .free
  a2 : ∀ w, s.wst w ≠ .free → s.map (s.wkey w) = some w
  c1 : ∀ w j, j ∈ s.mem w → s.jk j = s.wkey w ∧ j < s.jobs
  c2 : ∀ w, s.wst w = .free → s.mem w = []
  d : ∀ w j, s.head w = some j → j ∈ s.mem w ∧ (s.jst j = .head w ∨ (s.jst j = .proc w ∧ s.ph w = .busy j))
  e : ∀ w j, j ∈ s.q w → s.jst j = .chan w ∧ j ∈ s.mem w
  f : ∀ w j, s.ph w = .busy j → s.head w = some j ∧ s.jst j = .proc w
  i : ∀ w j, s.ph w = .adv j → s.jst j = .proc w
  p : ∀ w j, s.jst j = .proc w → s.ph w = .busy j ∨ s.ph w = .adv j
  h : ∀ w j, s.jst j = .wait w → j ∈ s.mem w
  nd : ∀ w, (s.q w).Nodup
  r : ∀ w, (∀ g, s.wst w ≠ .held g) → s.ph w = .took
  jn : ∀ j, s.jobs ≤ j → s.jst j = .new

theorem si_init : SI St.init := by
  constructor <;> simp [St.init]

theorem SI.quiet {s : St} (I : SI s) (tr : List Op) : SI { s with tr := tr } := by
  obtain ⟨a1, a2, c1, c2, d, e, f, i, p, h, nd, r, jn⟩ := I
  exact ⟨a1, a2, c1, c2, d, e, f, i, p, h, nd, r, jn⟩

/-- A job in a queue is made. -/
theorem SI.lt {s : St} (I : SI s) {j : Nat} (h : s.jst j ≠ .new) : j < s.jobs := by
  by_contra hn
  exact h (I.jn j (by omega))

theorem SI.fill {s : St} (I : SI s) {w : Nat} (hw : s.head w = none) : SI (Verif.Serial.fill s w) := by
  obtain ⟨a1, a2, c1, c2, d, e, f, i, p, h, nd, r, jn⟩ := I
  unfold Verif.Serial.fill
  cases hq : s.q w with
  | nil => simp only []; rw [upd_eta _ _ hw]; exact ⟨a1, a2, c1, c2, d, e, f, i, p, h, nd, r, jn⟩
  | cons j q =>
    simp only []
    have hj := e w j (by rw [hq]; simp)
    have hnd := nd w
    rw [hq] at hnd
    have hne : ∀ w' j', s.jst j' = .proc w' → j' ≠ j := fun w' j' h1 h2 => by rw [h2, hj.1] at h1; cases h1
    refine ⟨a1, a2, c1, c2, fun w' j' hh => ?_, fun w' j' hh => ?_, fun w' j' hh => ?_, fun w' j' hh => ?_, fun w' j' hh => ?_, fun w' j' hh => ?_, fun w' => ?_, r, fun j' hh => ?_⟩
    · simp only [] at hh ⊢
      by_cases hww : w' = w
      · subst hww
        rw [upd_same] at hh
        cases hh
        exact ⟨hj.2, .inl (upd_same ..)⟩
      · rw [upd_ne _ _ hww] at hh
        have h1 := d w' j' hh
        have : j' ≠ j := by
          intro h2; subst h2
          rcases h1.2 with h3 | h3
          · rw [hj.1] at h3; cases h3
          · rw [hj.1] at h3; cases h3.1
        rw [upd_ne _ _ this]
        exact h1
    · simp only [] at hh ⊢
      by_cases hww : w' = w
      · subst hww
        rw [upd_same] at hh
        have : j' ≠ j := fun h2 => by subst h2; exact (List.nodup_cons.mp hnd).1 hh
        rw [upd_ne _ _ this]
        exact e w' j' (by rw [hq]; exact List.mem_cons_of_mem _ hh)
      · rw [upd_ne _ _ hww] at hh
        have h1 := e w' j' hh
        have : j' ≠ j := by intro h2; subst h2; rw [hj.1] at h1; cases h1.1; exact hww rfl
        rw [upd_ne _ _ this]
        exact h1
    · simp only [] at hh ⊢
      have h1 := f w' j' hh
      have hww : w' ≠ w := fun h2 => by subst h2; rw [hw] at h1; cases h1.1
      rw [upd_ne _ _ hww, upd_ne _ _ (hne _ _ h1.2)]
      exact h1
    · simp only [] at hh ⊢
      have h1 := i w' j' hh
      rw [upd_ne _ _ (hne _ _ h1)]
      exact h1
    · simp only [] at hh ⊢
      by_cases hjj : j' = j
      · subst hjj; rw [upd_same] at hh; cases hh
      · rw [upd_ne _ _ hjj] at hh; exact p w' j' hh
    · simp only [] at hh ⊢
      by_cases hjj : j' = j
      · subst hjj; rw [upd_same] at hh; cases hh
      · rw [upd_ne _ _ hjj] at hh; exact h w' j' hh
    · simp only []
      by_cases hww : w' = w
      · subst hww; rw [upd_same]; exact (List.nodup_cons.mp hnd).2
      · rw [upd_ne _ _ hww]; exact nd w'
    · simp only [] at hh ⊢
      have := (c1 w j hj.2).2
      rw [upd_ne _ _ (by omega)]
      exact jn j' hh

/-- A job goes into the queue of the worker of its key. -/
theorem SI.insert {s : St} (I : SI s) {j w : Nat} (hl : j < s.jobs) (hn : s.jst j = .new) (g : Gor) (hw : s.map (s.jk j) = some w ∨ (s.map (s.jk j) = none ∧ s.wst w = .free)) (tr : List Op) (X : JSt) (hd : Nat → Option Nat) (q : Nat → List Nat)
    (hX : (X = .head w ∧ s.head w = none ∧ hd = upd s.head w (some j) ∧ q = s.q) ∨ (X = .wait w ∧ hd = s.head ∧ q = s.q) ∨ (X = .chan w ∧ hd = s.head ∧ q = upd s.q w (s.q w ++ [j]))) :
    SI { s with tr := tr, map := upd s.map (s.jk j) (some w), wkey := upd s.wkey w (s.jk j), mem := upd s.mem w (s.mem w ++ [j]), wst := if (s.map (s.jk j)).isNone then upd s.wst w (.give g) else s.wst, head := hd, q := q, jst := upd s.jst j X } := by
  have hwk : ∀ w', s.wst w' ≠ .free → w' ≠ w → s.wkey w' ≠ s.jk j := by
    intro w' h1 h2 h3
    have h4 := I.a2 w' h1
    rw [h3] at h4
    rcases hw with h | ⟨h, _⟩
    · rw [h] at h4; cases h4; exact h2 rfl
    · rw [h] at h4; cases h4
  have hmw : s.mem w = [] ∨ s.wkey w = s.jk j := by
    rcases hw with h | ⟨_, h⟩
    · exact .inr (I.a1 _ _ h).1
    · exact .inl (I.c2 w h)
  have hws : ∀ w', w' ≠ w → (if (s.map (s.jk j)).isNone then upd s.wst w (.give g) else s.wst) w' = s.wst w' := by
    intro w' h
    split
    · rw [upd_ne _ _ h]
    · rfl
  have hwf : (if (s.map (s.jk j)).isNone then upd s.wst w (.give g) else s.wst) w ≠ .free := by
    rcases hw with h | ⟨h, _⟩
    · rw [h]; simp; exact (I.a1 _ _ h).2
    · rw [h]; simp [upd_same]
  have hph : ∀ w', (∀ g', (if (s.map (s.jk j)).isNone then upd s.wst w (.give g) else s.wst) w' ≠ .held g') → s.ph w' = .took := by
    intro w' hh
    by_cases hww : w' = w
    · subst hww
      rcases hw with h | ⟨_, h⟩
      · rw [h] at hh; exact I.r w' (by simpa using hh)
      · exact I.r w' (by rw [h]; simp)
    · refine I.r w' fun g' => ?_
      rw [← hws w' hww]; exact hh g'
  have hjm : ∀ w' j', j' ∈ s.mem w' → j' ∈ upd s.mem w (s.mem w ++ [j]) w' := by
    intro w' j' h
    by_cases hww : w' = w
    · subst hww; rw [upd_same]; exact List.mem_append_left _ h
    · rw [upd_ne _ _ hww]; exact h
  have hjw : j ∈ upd s.mem w (s.mem w ++ [j]) w := by rw [upd_same]; simp
  obtain ⟨a1, a2, c1, c2, d, e, f, i, p, h, nd, r, jn⟩ := I
  have nh : ∀ w', s.head w' ≠ some j := fun w' hh => by
    have := (d w' j hh).2
    rw [hn] at this
    rcases this with h | h
    · cases h
    · cases h.1
  have nq : ∀ w', j ∉ s.q w' := fun w' hh => by
    have := (e w' j hh).1
    rw [hn] at this; cases this
  refine ⟨fun k w' hh => ?_, fun w' hh => ?_, fun w' j' hh => ?_, fun w' hh => ?_, fun w' j' hh => ?_, fun w' j' hh => ?_, fun w' j' hh => ?_, fun w' j' hh => ?_, fun w' j' hh => ?_, fun w' j' hh => ?_, fun w' => ?_, hph, fun j' hh => ?_⟩
  · simp only [] at hh ⊢
    by_cases hk : k = s.jk j
    · subst hk
      rw [upd_same] at hh
      cases hh
      rw [upd_same]
      exact ⟨rfl, hwf⟩
    · rw [upd_ne _ _ hk] at hh
      have h1 := a1 k w' hh
      have hww : w' ≠ w := by
        intro h2; subst h2
        rcases hw with h3 | ⟨_, h3⟩
        · exact hk (h1.1.symm.trans (a1 _ _ h3).1)
        · exact h1.2 h3
      rw [upd_ne _ _ hww, hws w' hww]
      exact h1
  · simp only [] at hh ⊢
    by_cases hww : w' = w
    · subst hww; rw [upd_same, upd_same]
    · rw [hws w' hww] at hh
      rw [upd_ne _ _ hww, upd_ne _ _ (hwk w' hh hww)]
      exact a2 w' hh
  · simp only [] at hh ⊢
    by_cases hww : w' = w
    · subst hww
      rw [upd_same] at hh ⊢
      rcases List.mem_append.mp hh with hh | hh
      · rcases hmw with h1 | h1
        · rw [h1] at hh; cases hh
        · rw [← h1]; exact c1 w' j' hh
      · rw [List.mem_singleton.mp hh]; exact ⟨rfl, hl⟩
    · rw [upd_ne _ _ hww] at hh ⊢; exact c1 w' j' hh
  · simp only [] at hh ⊢
    by_cases hww : w' = w
    · subst hww; exact absurd hh hwf
    · rw [hws w' hww] at hh; rw [upd_ne _ _ hww]; exact c2 w' hh
  · simp only [] at hh ⊢
    by_cases hjj : j' = j
    · subst hjj
      rcases hX with ⟨rfl, h1, rfl, rfl⟩ | ⟨rfl, rfl, rfl⟩ | ⟨rfl, rfl, rfl⟩
      · by_cases hww : w' = w
        · subst hww; exact ⟨hjw, .inl (upd_same ..)⟩
        · rw [upd_ne _ _ hww] at hh; exact absurd hh (nh w')
      · exact absurd hh (nh w')
      · exact absurd hh (nh w')
    · have hh' : s.head w' = some j' := by
        rcases hX with ⟨_, h1, rfl, _⟩ | ⟨_, rfl, _⟩ | ⟨_, rfl, _⟩
        · by_cases hww : w' = w
          · subst hww; rw [upd_same] at hh; cases hh; exact absurd rfl hjj
          · rw [upd_ne _ _ hww] at hh; exact hh
        · exact hh
        · exact hh
      have := d w' j' hh'
      rw [upd_ne _ _ hjj]
      exact ⟨hjm _ _ this.1, this.2⟩
  · simp only [] at hh ⊢
    by_cases hjj : j' = j
    · subst hjj
      rcases hX with ⟨rfl, h1, rfl, rfl⟩ | ⟨rfl, rfl, rfl⟩ | ⟨rfl, rfl, rfl⟩
      · exact absurd hh (nq w')
      · exact absurd hh (nq w')
      · by_cases hww : w' = w
        · subst hww; exact ⟨upd_same .., hjw⟩
        · rw [upd_ne _ _ hww] at hh; exact absurd hh (nq w')
    · have hh' : j' ∈ s.q w' := by
        rcases hX with ⟨_, _, _, rfl⟩ | ⟨_, _, rfl⟩ | ⟨_, _, rfl⟩
        · exact hh
        · exact hh
        · by_cases hww : w' = w
          · subst hww; rw [upd_same] at hh; simpa [hjj] using hh
          · rw [upd_ne _ _ hww] at hh; exact hh
      have := e w' j' hh'
      rw [upd_ne _ _ hjj]
      exact ⟨this.1, hjm _ _ this.2⟩
  · simp only [] at hh ⊢
    have h1 := f w' j' hh
    have hjj : j' ≠ j := fun h2 => by subst h2; exact nh w' h1.1
    rw [upd_ne _ _ hjj]
    refine ⟨?_, h1.2⟩
    rcases hX with ⟨_, h2, rfl, _⟩ | ⟨_, rfl, _⟩ | ⟨_, rfl, _⟩
    · rw [upd_ne _ _ (by intro h3; subst h3; rw [h2] at h1; cases h1.1)]; exact h1.1
    · exact h1.1
    · exact h1.1
  · simp only [] at hh ⊢
    have h1 := i w' j' hh
    rw [upd_ne _ _ (by intro h2; subst h2; rw [hn] at h1; cases h1)]
    exact h1
  · simp only [] at hh ⊢
    by_cases hjj : j' = j
    · subst hjj; rw [upd_same] at hh; rcases hX with ⟨rfl, _⟩ | ⟨rfl, _⟩ | ⟨rfl, _⟩ <;> cases hh
    · rw [upd_ne _ _ hjj] at hh; exact p w' j' hh
  · simp only [] at hh ⊢
    by_cases hjj : j' = j
    · subst hjj
      rw [upd_same] at hh
      rcases hX with ⟨rfl, _⟩ | ⟨rfl, _⟩ | ⟨rfl, _⟩ <;> cases hh
      exact hjw
    · rw [upd_ne _ _ hjj] at hh; exact hjm _ _ (h w' j' hh)
  · simp only []
    rcases hX with ⟨_, _, _, rfl⟩ | ⟨_, _, rfl⟩ | ⟨_, _, rfl⟩
    · exact nd w'
    · exact nd w'
    · by_cases hww : w' = w
      · subst hww
        rw [upd_same]
        refine List.nodup_append.mpr ⟨nd w', List.nodup_singleton _, ?_⟩
        intro a ha b hb hab
        rw [List.mem_singleton] at hb
        subst hab; subst hb
        exact nq w' ha
      · rw [upd_ne _ _ hww]; exact nd w'
  · simp only [] at hh ⊢
    rw [upd_ne _ _ (by omega)]
    exact jn j' hh

end Verif.Serial
