import Verif.Items.Flow
/-
The bookkeeping of batches, items, executors and executions.
-/
namespace Verif.Items
open Verif.Eos (upd)

/-- Where everything is. -/
structure SI (s : St) : Prop where
  fr : ∀ i, s.items ≤ i → s.ist i = .made
  hl : ∀ x i, i ∈ s.has x → i < s.items
  hx : ∀ i x, s.ist i = .ex x → i ∈ s.has x
  hm : ∀ x i, i ∈ s.has x → s.ist i ≠ .made
  e1 : ∀ x r, s.exe x = some r → r < s.runs ∧ s.rx r = x ∧ s.rst r ≠ .late
  e2 : ∀ r, r < s.runs → s.rst r ≠ .late → s.exe (s.rx r) = some r
  lf : ∀ b i, i ∈ s.left b ↔ i < s.items ∧ s.ib i = b ∧ s.ist i ≠ .done
  nd : ∀ b, (s.left b).Nodup
  il : ∀ i, i < s.items → s.ib i < s.batches
  sn : ∀ b, s.bst b = .sent ∨ s.bst b = .called → s.left b = []
  fi : ∀ i, i < s.items → s.ist i ≠ .made → s.bst (s.ib i) ≠ .fill
  pl : ∀ b, s.ph b = true → (s.left b).length ≤ 1
  pd : ∀ i, i < s.items → s.ph (s.ib i) = true → s.ist i = .done → s.bst (s.ib i) = .sent ∨ s.bst (s.ib i) = .called
  bf : ∀ b, s.batches ≤ b → s.bst b = .fill

theorem si_init : SI St.init := by
  constructor <;> simp [St.init]

theorem upd_same {α : Type} (f : Nat → α) (i : Nat) (x : α) : upd f i x i = x := by simp [upd]

theorem upd_ne {α : Type} (f : Nat → α) {i j : Nat} (x : α) (h : j ≠ i) : upd f i x j = f j := by simp [upd, h]

/-- An item goes into an executor or waits. -/
theorem SI.put {s : St} (I : SI s) {i : Nat} {x : Option Nat} (hi : i < s.items) (hd : s.ist i ≠ .done) (hb : s.bst (s.ib i) ≠ .fill) (tr : List Op) :
    SI { Verif.Items.put s i x with tr := tr } := by
  obtain ⟨fr, hl, hx, hm, e1, e2, lf, nd, il, sn, fi, pl, pd, bf⟩ := I
  have key : ∀ (st : ISt), st ≠ .done → ∀ b j, j ∈ s.left b ↔ j < s.items ∧ s.ib j = b ∧ upd s.ist i st j ≠ .done := by
    intro st hst b j
    rw [lf b j]
    by_cases hj : j = i
    · subst hj; rw [upd_same]; simp [hd, hst]
    · rw [upd_ne _ _ hj]
  cases x with
  | none =>
    refine ⟨fun j hj => ?_, hl, fun j y hj => ?_, fun y j hj => ?_, e1, e2, key .pend (by simp), nd, il, sn, fun j hj hn => ?_, pl, fun j hj hp hdn => ?_, bf⟩
    · simp only [Verif.Items.put] at hj ⊢
      rw [upd_ne _ _ (by omega)]; exact fr j hj
    · simp only [Verif.Items.put] at hj ⊢
      by_cases hji : j = i
      · subst hji; rw [upd_same] at hj; cases hj
      · rw [upd_ne _ _ hji] at hj; exact hx j y hj
    · simp only [Verif.Items.put] at hj ⊢
      by_cases hji : j = i
      · subst hji; rw [upd_same]; simp
      · rw [upd_ne _ _ hji]; exact hm y j hj
    · simp only [Verif.Items.put] at hj hn ⊢
      by_cases hji : j = i
      · subst hji; exact hb
      · rw [upd_ne _ _ hji] at hn; exact fi j hj hn
    · simp only [Verif.Items.put] at hj hp hdn ⊢
      by_cases hji : j = i
      · subst hji; rw [upd_same] at hdn; cases hdn
      · rw [upd_ne _ _ hji] at hdn; exact pd j hj hp hdn
  | some x =>
    refine ⟨fun j hj => ?_, fun y j hj => ?_, fun j y hj => ?_, fun y j hj => ?_, e1, e2, key (.ex x) (by simp), nd, il, sn, fun j hj hn => ?_, pl, fun j hj hp hdn => ?_, bf⟩
    · simp only [Verif.Items.put] at hj ⊢
      rw [upd_ne _ _ (by omega)]; exact fr j hj
    · simp only [Verif.Items.put] at hj ⊢
      by_cases hy : y = x
      · subst hy
        rw [upd_same] at hj
        rcases List.mem_append.mp hj with hj | hj
        · exact hl y j hj
        · rw [List.mem_singleton.mp hj]; exact hi
      · rw [upd_ne _ _ hy] at hj; exact hl y j hj
    · simp only [Verif.Items.put] at hj ⊢
      by_cases hji : j = i
      · subst hji
        rw [upd_same] at hj
        cases hj
        rw [upd_same]; simp
      · rw [upd_ne _ _ hji] at hj
        by_cases hy : y = x
        · subst hy; rw [upd_same]; exact List.mem_append_left _ (hx j y hj)
        · rw [upd_ne _ _ hy]; exact hx j y hj
    · simp only [Verif.Items.put] at hj ⊢
      by_cases hji : j = i
      · subst hji; rw [upd_same]; simp
      · rw [upd_ne _ _ hji]
        by_cases hy : y = x
        · subst hy
          rw [upd_same] at hj
          rcases List.mem_append.mp hj with hj | hj
          · exact hm y j hj
          · exact absurd (List.mem_singleton.mp hj) hji
        · rw [upd_ne _ _ hy] at hj; exact hm y j hj
    · simp only [Verif.Items.put] at hj hn ⊢
      by_cases hji : j = i
      · subst hji; exact hb
      · rw [upd_ne _ _ hji] at hn; exact fi j hj hn
    · simp only [Verif.Items.put] at hj hp hdn ⊢
      by_cases hji : j = i
      · subst hji; rw [upd_same] at hdn; cases hdn
      · rw [upd_ne _ _ hji] at hdn; exact pd j hj hp hdn

/-- Only the trace grows. -/
theorem SI.quiet {s : St} (I : SI s) (tr : List Op) : SI { s with tr := tr } := by
  obtain ⟨fr, hl, hx, hm, e1, e2, lf, nd, il, sn, fi, pl, pd, bf⟩ := I
  exact ⟨fr, hl, hx, hm, e1, e2, lf, nd, il, sn, fi, pl, pd, bf⟩

/-- An item is completed. -/
theorem SI.complete {s : St} (I : SI s) {i x : Nat} (hi : s.ist i = .ex x) (tr : List Op) (st : BSt) (hst : st = .given ∨ st = .sent) (hg : st = .given → s.bst (s.ib i) = .given ∧ s.ph (s.ib i) = false)
    (hs : st = .sent → (s.left (s.ib i)).erase i = []) :
    SI { s with tr := tr, ist := upd s.ist i .done, left := upd s.left (s.ib i) ((s.left (s.ib i)).erase i), bst := upd s.bst (s.ib i) st } := by
  obtain ⟨fr, hl, hx, hm, e1, e2, lf, nd, il, sn, fi, pl, pd, bf⟩ := I
  have hlt : i < s.items := hl x i (hx i x hi)
  have hmem : i ∈ s.left (s.ib i) := (lf _ _).mpr ⟨hlt, rfl, by rw [hi]; simp⟩
  refine ⟨fun j hj => ?_, hl, fun j y hj => ?_, fun y j hj => ?_, e1, e2, fun b j => ?_, fun b => ?_, il, fun b hb => ?_, fun j hj hn => ?_, fun b hb => ?_, fun j hj hp hdn => ?_, fun b hb => by have := il i hlt; simp only [] at hb ⊢; rw [upd_ne _ _ (by omega)]; exact bf b hb⟩
  · simp only [] at hj ⊢; rw [upd_ne _ _ (by omega)]; exact fr j hj
  · simp only [] at hj ⊢
    by_cases hji : j = i
    · subst hji; rw [upd_same] at hj; cases hj
    · rw [upd_ne _ _ hji] at hj; exact hx j y hj
  · simp only []
    by_cases hji : j = i
    · subst hji; rw [upd_same]; simp
    · rw [upd_ne _ _ hji]; exact hm y j hj
  · simp only []
    by_cases hb : b = s.ib i
    · subst hb
      rw [upd_same, (nd _).mem_erase_iff, lf]
      by_cases hji : j = i
      · subst hji; rw [upd_same]; simp
      · rw [upd_ne _ _ hji]; simp [hji]
    · rw [upd_ne _ _ hb, lf]
      by_cases hji : j = i
      · subst hji; simp [Ne.symm hb]
      · rw [upd_ne _ _ hji]
  · simp only []
    by_cases hb : b = s.ib i
    · subst hb; rw [upd_same]; exact (nd _).erase i
    · rw [upd_ne _ _ hb]; exact nd b
  · simp only [] at hb ⊢
    by_cases hbi : b = s.ib i
    · subst hbi
      rw [upd_same] at hb ⊢
      rcases hst with rfl | rfl
      · simp at hb
      · exact hs rfl
    · rw [upd_ne _ _ hbi] at hb ⊢; exact sn b hb
  · simp only [] at hj hn ⊢
    by_cases hbi : s.ib j = s.ib i
    · rw [hbi, upd_same]; rcases hst with rfl | rfl <;> simp
    · rw [upd_ne _ _ hbi]
      have hji : j ≠ i := fun h => hbi (by rw [h])
      rw [upd_ne _ _ hji] at hn
      exact fi j hj hn
  · simp only [] at hb ⊢
    by_cases hbi : b = s.ib i
    · subst hbi; rw [upd_same]; have := pl _ hb; rw [List.length_erase_of_mem hmem]; omega
    · rw [upd_ne _ _ hbi]; exact pl b hb
  · simp only [] at hj hp hdn ⊢
    by_cases hbi : s.ib j = s.ib i
    · rw [hbi, upd_same]
      rcases hst with rfl | rfl
      · have := (hg rfl).2; rw [hbi, this] at hp; cases hp
      · exact .inl rfl
    · rw [upd_ne _ _ hbi]
      have hji : j ≠ i := fun h => hbi (by rw [h])
      rw [upd_ne _ _ hji] at hdn
      exact pd j hj hp hdn

/-- A batch with an item in an executor is given and not sent. -/
theorem SI.given {s : St} (I : SI s) {i x : Nat} (hi : s.ist i = .ex x) : s.bst (s.ib i) = .given := by
  have hlt : i < s.items := I.hl x i (I.hx i x hi)
  have hmem : i ∈ s.left (s.ib i) := (I.lf _ _).mpr ⟨hlt, rfl, by rw [hi]; simp⟩
  have h1 := I.fi i hlt (by rw [hi]; simp)
  have h2 := I.sn (s.ib i)
  cases hb : s.bst (s.ib i) with
  | fill => exact absurd hb h1
  | given => rfl
  | sent => rw [h2 (.inl hb)] at hmem; cases hmem
  | called => rw [h2 (.inr hb)] at hmem; cases hmem

theorem upd_eta {α : Type} (f : Nat → α) (i : Nat) {x : α} (h : f i = x) : upd f i x = f := by
  funext j
  by_cases hj : j = i
  · rw [hj, upd_same, h]
  · rw [upd_ne _ _ hj]

theorem si_step {s s' : St} {x : Act} (I : SI s) (h : step s x = some s') : SI s' := by
  cases x with
  | batch w =>
    simp only [step, Option.some.injEq] at h
    subst h
    obtain ⟨fr, hl, hx, hm, e1, e2, lf, nd, il, sn, fi, pl, pd, bf⟩ := I
    have hne : ∀ i, i < s.items → s.ib i ≠ s.batches := fun i hi h => by have := il i hi; omega
    refine ⟨fr, hl, hx, hm, e1, e2, fun b i => ?_, fun b => ?_, fun i hi => by have := il i hi; simp only []; omega, fun b hb => ?_, fun i hi hn => ?_, fun b hb => ?_, fun i hi hp hd => ?_, fun b hb => by simp only [] at hb ⊢; rw [upd_ne _ _ (by omega)]; exact bf b (by omega)⟩
    · simp only []
      by_cases hb : b = s.batches
      · subst hb; rw [upd_same]; simp only [List.not_mem_nil, false_iff]; intro ⟨h1, h2, _⟩; exact hne i h1 h2
      · rw [upd_ne _ _ hb]; exact lf b i
    · simp only []
      by_cases hb : b = s.batches
      · subst hb; rw [upd_same]; exact List.nodup_nil
      · rw [upd_ne _ _ hb]; exact nd b
    · simp only [] at hb ⊢
      by_cases hbb : b = s.batches
      · subst hbb; rw [upd_same]
      · rw [upd_ne _ _ hbb] at hb ⊢; exact sn b hb
    · simp only [] at hi hn ⊢; rw [upd_ne _ _ (hne i hi)]; exact fi i hi hn
    · simp only [] at hb ⊢
      by_cases hbb : b = s.batches
      · subst hbb; rw [upd_same] at hb; cases hb
      · rw [upd_ne _ _ hbb] at hb ⊢; exact pl b hb
    · simp only [] at hi hp hd ⊢
      rw [upd_ne _ _ (hne i hi)] at hp ⊢
      exact pd i hi hp hd
  | item b p =>
    simp only [step] at h
    split at h
    · rename_i hc
      obtain ⟨c1, c2, c3, c4⟩ := hc
      simp only [Option.some.injEq] at h
      subst h
      obtain ⟨fr, hl, hx, hm, e1, e2, lf, nd, il, sn, fi, pl, pd, bf⟩ := I
      have ism : upd s.ist s.items .made = s.ist := upd_eta _ _ (fr _ (Nat.le_refl _))
      refine ⟨fun i hi => ?_, fun x i hi => by have := hl x i hi; simp only []; omega, fun i x hi => ?_, fun x i hi => by simp only [ism]; exact hm x i hi, e1, e2, fun b' i => ?_, fun b' => ?_, fun i hi => ?_, fun b' hb => ?_, fun i hi hn => ?_, fun b' hb => ?_, fun i hi hp hd => ?_, bf⟩
      · simp only [ism] at hi ⊢; exact fr i (by omega)
      · simp only [ism] at hi ⊢; exact hx i x hi
      · simp only [ism]
        by_cases hi : i = s.items
        · subst hi
          rw [upd_same]
          have h0 := fr s.items (Nat.le_refl _)
          by_cases hb : b' = b
          · subst hb; rw [upd_same]; simp [h0]
          · rw [upd_ne _ _ hb, lf]
            constructor
            · intro ⟨h1, _⟩; omega
            · intro ⟨_, h1, _⟩; exact absurd h1.symm hb
        · rw [upd_ne _ _ hi]
          have hlt : i < s.items + 1 ↔ i < s.items := by omega
          rw [hlt]
          by_cases hb : b' = b
          · subst hb; rw [upd_same]; simp [hi, lf]
          · rw [upd_ne _ _ hb]; exact lf b' i
      · simp only []
        by_cases hb : b' = b
        · subst hb
          rw [upd_same]
          refine List.nodup_append.mpr ⟨nd b', List.nodup_singleton _, ?_⟩
          intro a ha c hc2 hac
          rw [List.mem_singleton] at hc2
          have := ((lf b' a).mp ha).1
          omega
        · rw [upd_ne _ _ hb]; exact nd b'
      · simp only [] at hi ⊢
        by_cases hii : i = s.items
        · subst hii; rw [upd_same]; exact c1
        · rw [upd_ne _ _ hii]; exact il i (by omega)
      · simp only [] at hb ⊢
        by_cases hbb : b' = b
        · subst hbb; rw [c2] at hb; simp at hb
        · rw [upd_ne _ _ hbb]; exact sn b' hb
      · simp only [ism] at hi hn ⊢
        by_cases hii : i = s.items
        · subst hii; exact absurd (fr _ (Nat.le_refl _)) hn
        · rw [upd_ne _ _ hii]; exact fi i (by omega) hn
      · simp only [] at hb ⊢
        by_cases hbb : b' = b
        · subst hbb; rw [upd_same] at hb ⊢; rw [c4 hb]; simp
        · rw [upd_ne _ _ hbb] at hb ⊢; exact pl b' hb
      · simp only [ism] at hi hp hd ⊢
        by_cases hii : i = s.items
        · subst hii; rw [fr _ (Nat.le_refl _)] at hd; cases hd
        · rw [upd_ne _ _ hii] at hp ⊢
          by_cases hbb : s.ib i = b
          · have := fi i (by omega) (by rw [hd]; simp)
            rw [hbb] at this
            exact absurd c2 this
          · rw [upd_ne _ _ hbb] at hp; exact pd i (by omega) hp hd
    · cases h
  | give b =>
    simp only [step] at h
    split at h
    · rename_i hc
      obtain ⟨c1, c2, c3⟩ := hc
      simp only [Option.some.injEq] at h
      subst h
      obtain ⟨fr, hl, hx, hm, e1, e2, lf, nd, il, sn, fi, pl, pd, bf⟩ := I
      refine ⟨fr, hl, hx, hm, e1, e2, lf, nd, il, fun b' hb => ?_, fun i hi hn => ?_, pl, fun i hi hp hd => ?_, fun b' hb => by simp only [] at hb ⊢; rw [upd_ne _ _ (by omega)]; exact bf b' hb⟩
      · simp only [] at hb ⊢
        by_cases hbb : b' = b
        · subst hbb; rw [upd_same] at hb; simp at hb
        · rw [upd_ne _ _ hbb] at hb; exact sn b' hb
      · simp only [] at hi hn ⊢
        by_cases hbb : s.ib i = b
        · rw [hbb, upd_same]; simp
        · rw [upd_ne _ _ hbb]; exact fi i hi hn
      · simp only [] at hi hp hd ⊢
        have := fi i hi (by rw [hd]; simp)
        by_cases hbb : s.ib i = b
        · rw [hbb] at this; exact absurd c2 this
        · rw [upd_ne _ _ hbb]; exact pd i hi hp hd
    · cases h
  | add i x =>
    simp only [step] at h
    split at h
    · rename_i hc
      obtain ⟨c1, c2, c3, c4⟩ := hc
      simp only [Option.some.injEq] at h
      subst h
      exact I.put c1 (by rw [c2]; simp) (by rw [c3]; simp) _
    · cases h
  | start g x =>
    simp only [step] at h
    split at h
    · rename_i hc
      simp only [Option.some.injEq] at h
      subst h
      obtain ⟨fr, hl, hx, hm, e1, e2, lf, nd, il, sn, fi, pl, pd, bf⟩ := I
      refine ⟨fr, hl, hx, hm, fun y r hy => ?_, fun r hr hn => ?_, lf, nd, il, sn, fi, pl, pd, bf⟩
      · simp only [] at hy ⊢
        by_cases hyx : y = x
        · subst hyx; rw [upd_same] at hy; cases hy; exact ⟨by omega, upd_same .., by rw [upd_same]; simp⟩
        · rw [upd_ne _ _ hyx] at hy
          obtain ⟨h1, h2, h3⟩ := e1 y r hy
          rw [upd_ne _ _ (by omega), upd_ne _ _ (by omega)]
          exact ⟨by omega, h2, h3⟩
      · simp only [] at hr hn ⊢
        by_cases hrr : r = s.runs
        · subst hrr; rw [upd_same, upd_same]
        · rw [upd_ne _ _ hrr] at hn ⊢
          have := e2 r (by omega) hn
          by_cases hyx : s.rx r = x
          · rw [hyx, hc] at this; cases this
          · rw [upd_ne _ _ hyx]; exact this
    · cases h
  | begin r =>
    simp only [step] at h
    split at h
    · rename_i hc
      simp only [Option.some.injEq] at h
      subst h
      obtain ⟨fr, hl, hx, hm, e1, e2, lf, nd, il, sn, fi, pl, pd, bf⟩ := I
      refine ⟨fr, hl, hx, hm, fun y r' hy => ?_, fun r' hr hn => ?_, lf, nd, il, sn, fi, pl, pd, bf⟩
      · obtain ⟨h1, h2, h3⟩ := e1 y r' hy
        refine ⟨h1, h2, ?_⟩
        simp only []
        by_cases hrr : r' = r
        · subst hrr; rw [upd_same]; simp
        · rw [upd_ne _ _ hrr]; exact h3
      · simp only [] at hr hn ⊢
        by_cases hrr : r' = r
        · subst hrr; exact e2 r' hr (by rw [hc.2]; simp)
        · rw [upd_ne _ _ hrr] at hn; exact e2 r' hr hn
    · cases h
  | exec r i =>
    simp only [step] at h
    split at h
    · simp only [Option.some.injEq] at h; subst h; exact I.quiet _
    · cases h
  | complete r i =>
    simp only [step] at h
    split at h
    · rename_i hc
      have hg := I.given hc.2.2
      have hlt : i < s.items := I.hl _ i (I.hx i _ hc.2.2)
      have hmem : i ∈ s.left (s.ib i) := (I.lf _ _).mpr ⟨hlt, rfl, by rw [hc.2.2]; simp⟩
      split at h
      · rename_i hp
        simp only [Option.some.injEq] at h
        subst h
        refine I.complete hc.2.2 _ .sent (.inr rfl) (fun h => by cases h) fun _ => ?_
        have h1 := I.pl _ hp
        have h2 := List.length_erase_of_mem hmem
        exact List.eq_nil_of_length_eq_zero (by omega)
      · rename_i hp
        split at h
        · rename_i he
          simp only [Option.some.injEq] at h
          subst h
          exact I.complete hc.2.2 _ .sent (.inr rfl) (fun h => by cases h) fun _ => by simpa using he
        · simp only [Option.some.injEq] at h
          subst h
          have := I.complete hc.2.2 (s.tr ++ [.acc (.run r) (.slice (s.rx r)) false, .acc (.run r) (.fixed i) false, .atom (.run r) (s.ib i), .acc (.run r) (.list (s.ib i)) false]) .given (.inl rfl) (fun _ => ⟨hg, by simpa using hp⟩) (fun h => by cases h)
          rw [upd_eta _ _ hg] at this
          exact this
    · cases h
  | look r i =>
    simp only [step] at h
    split at h
    · simp only [Option.some.injEq] at h; subst h; exact I.quiet _
    · cases h
  | finish r =>
    simp only [step] at h
    split at h
    · rename_i hc
      obtain ⟨c1, c2, c3⟩ := hc
      simp only [Option.some.injEq] at h
      subst h
      simp only [List.all_eq_true, beq_iff_eq] at c3
      obtain ⟨fr, hl, hx, hm, e1, e2, lf, nd, il, sn, fi, pl, pd, bf⟩ := I
      refine ⟨fr, fun y i hi => ?_, fun i y hi => ?_, fun y i hi => ?_, fun y r' hy => ?_, fun r' hr hn => ?_, lf, nd, il, sn, fi, pl, pd, bf⟩
      · simp only [] at hi ⊢
        by_cases hy : y = s.rx r
        · subst hy; rw [upd_same] at hi; cases hi
        · rw [upd_ne _ _ hy] at hi; exact hl y i hi
      · simp only [] at hi ⊢
        have := hx i y hi
        by_cases hy : y = s.rx r
        · subst hy; rw [c3 i this] at hi; cases hi
        · rw [upd_ne _ _ hy]; exact this
      · simp only [] at hi ⊢
        by_cases hy : y = s.rx r
        · subst hy; rw [upd_same] at hi; cases hi
        · rw [upd_ne _ _ hy] at hi; exact hm y i hi
      · simp only [] at hy ⊢
        by_cases hyx : y = s.rx r
        · subst hyx; rw [upd_same] at hy; cases hy
        · rw [upd_ne _ _ hyx] at hy
          obtain ⟨h1, h2, h3⟩ := e1 y r' hy
          refine ⟨h1, h2, ?_⟩
          rw [upd_ne _ _ (by intro h; subst h; exact hyx h2.symm)]
          exact h3
      · simp only [] at hr hn ⊢
        by_cases hrr : r' = r
        · subst hrr; rw [upd_same] at hn; exact absurd rfl hn
        · rw [upd_ne _ _ hrr] at hn
          have h1 := e2 r' hr hn
          have h2 := e2 r c1 (by rw [c2]; simp)
          rw [upd_ne _ _ (by intro h; rw [h, h2] at h1; cases h1; exact hrr rfl)]
          exact h1
    · cases h
  | flush r i x =>
    simp only [step] at h
    split at h
    · rename_i hc
      obtain ⟨c1, c2, c3, c4, c5⟩ := hc
      simp only [Option.some.injEq] at h
      subst h
      exact I.put c3 (by rw [c4]; simp) (I.fi i c3 (by rw [c4]; simp)) _
    · cases h
  | call b =>
    simp only [step] at h
    split at h
    · rename_i hc
      simp only [Option.some.injEq] at h
      subst h
      obtain ⟨fr, hl, hx, hm, e1, e2, lf, nd, il, sn, fi, pl, pd, bf⟩ := I
      refine ⟨fr, hl, hx, hm, e1, e2, lf, nd, il, fun b' hb => ?_, fun i hi hn => ?_, pl, fun i hi hp hd => ?_, fun b' hb => by have := hc.1; simp only [] at hb ⊢; rw [upd_ne _ _ (by omega)]; exact bf b' hb⟩
      · simp only [] at hb ⊢
        by_cases hbb : b' = b
        · subst hbb; exact sn b' (.inl hc.2)
        · rw [upd_ne _ _ hbb] at hb; exact sn b' hb
      · simp only [] at hi hn ⊢
        by_cases hbb : s.ib i = b
        · rw [hbb, upd_same]; simp
        · rw [upd_ne _ _ hbb]; exact fi i hi hn
      · simp only [] at hi hp hd ⊢
        by_cases hbb : s.ib i = b
        · rw [hbb, upd_same]; exact .inr rfl
        · rw [upd_ne _ _ hbb]; exact pd i hi hp hd
    · cases h
  | use i w =>
    simp only [step] at h
    split at h
    · simp only [Option.some.injEq] at h; subst h; exact I.quiet _
    · cases h

theorem si_reach {s : St} (hs : Reach s) : SI s := by
  induction hs with
  | init => exact si_init
  | step x _ h ih => exact si_step ih h

end Verif.Items
