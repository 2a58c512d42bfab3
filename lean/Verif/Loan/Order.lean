import Verif.Loan.Proofs
/-
Messages are sent once, before they are received.
-/
namespace Verif.Loan
open Verif.Eos (upd)

theorem Before.lt {tr : List Op} {i j : Nat} (h : Before tr i j) : i < j := by
  induction h with
  | same h => exact h
  | chan h => exact h
  | lock h => exact h
  | atom h => exact h
  | trans _ _ h1 h2 => omega

/-- What was sent so far. -/
structure NI (s : St) : Prop where
  pr : ∀ g n, Op.snd g (.prod n) ∈ s.tr → n < s.sends
  pa : ∀ g n, Op.snd g (.pass n) ∈ s.tr → n < s.sends
  jb : ∀ g b, Op.snd g (.job b) ∈ s.tr → s.bst b ≠ .opn
  cp : ∀ r k ob, s.rst r = .cli k ob → ∃ g, Op.snd g (.prod k) ∈ s.tr
  cw : ∀ r k, s.rst r = .way k → ∃ g, Op.snd g (.pass k) ∈ s.tr
  cs : ∀ b, s.bst b = .sent → ∃ g, Op.snd g (.job b) ∈ s.tr
  ord : Orderly s.tr

/-- Nothing is sent or received. -/
def Silent (l : List Op) : Prop := ∀ o ∈ l, (∀ g m, o ≠ .snd g m) ∧ ∀ g m, o ≠ .rcv g m

theorem Orderly.silent {tr l : List Op} (h : Orderly tr) (hl : Silent l) : Orderly (tr ++ l) := by
  obtain ⟨h1, h2⟩ := h
  constructor
  · intro j g m hj
    rcases get_append hj with hj | ⟨l1, l2, rfl, rfl⟩
    · obtain ⟨i, g', hi, hg⟩ := h1 j g m hj
      exact ⟨i, g', hi, get_left hg⟩
    · exact absurd rfl ((hl (.rcv g m) (by simp)).2 g m)
  · intro i j g g' m hi hj
    rcases get_append hi with hi | ⟨l1, l2, rfl, rfl⟩
    · rcases get_append hj with hj | ⟨m1, m2, rfl, rfl⟩
      · exact h2 i j g g' m hi hj
      · exact absurd rfl ((hl (.snd g' m) (by simp)).1 g' m)
    · exact absurd rfl ((hl (.snd g m) (by simp)).1 g m)

theorem Orderly.send {tr : List Op} {g : Gor} {m : Msg} (h : Orderly tr) (hn : ∀ g', Op.snd g' m ∉ tr) : Orderly (tr ++ [.snd g m]) := by
  obtain ⟨h1, h2⟩ := h
  have last : ∀ (p : Nat) (o : Op), (tr ++ [.snd g m])[p]? = some o → tr[p]? = some o ∨ (o = .snd g m ∧ p = tr.length) := by
    intro p o hp
    rcases get_append hp with hp | ⟨l1, l2, hl, rfl⟩
    · exact .inl hp
    · cases l1 with
      | nil => simp at hl; exact .inr ⟨hl.1.symm, rfl⟩
      | cons a l1 => simp at hl
  constructor
  · intro j g' m' hj
    rcases last j _ hj with hj | ⟨hj, _⟩
    · obtain ⟨i, g'', hi, hg⟩ := h1 j g' m' hj
      exact ⟨i, g'', hi, get_left hg⟩
    · cases hj
  · intro i j g1 g2 m' hi hj
    rcases last i _ hi with hi | ⟨hi, hil⟩ <;> rcases last j _ hj with hj | ⟨hj, hjl⟩
    · exact h2 i j g1 g2 m' hi hj
    · cases hj; exact absurd (List.mem_of_getElem? hi) (hn _)
    · cases hi; exact absurd (List.mem_of_getElem? hj) (hn _)
    · omega

theorem Orderly.receive {tr : List Op} {g : Gor} {m : Msg} (h : Orderly tr) (hn : ∃ g', Op.snd g' m ∈ tr) : Orderly (tr ++ [.rcv g m]) := by
  obtain ⟨h1, h2⟩ := h
  have last : ∀ (p : Nat) (o : Op), (tr ++ [.rcv g m])[p]? = some o → tr[p]? = some o ∨ (o = .rcv g m ∧ p = tr.length) := by
    intro p o hp
    rcases get_append hp with hp | ⟨l1, l2, hl, rfl⟩
    · exact .inl hp
    · cases l1 with
      | nil => simp at hl; exact .inr ⟨hl.1.symm, rfl⟩
      | cons a l1 => simp at hl
  constructor
  · intro j g' m' hj
    rcases last j _ hj with hj | ⟨hj, hjl⟩
    · obtain ⟨i, g'', hi, hg⟩ := h1 j g' m' hj
      exact ⟨i, g'', hi, get_left hg⟩
    · cases hj
      obtain ⟨g', hg'⟩ := hn
      obtain ⟨i, hi⟩ := List.mem_iff_getElem?.mp hg'
      exact ⟨i, g', by rw [hjl]; exact lt_of_get hi, get_left hi⟩
  · intro i j g1 g2 m' hi hj
    rcases last i _ hi with hi | ⟨hi, _⟩ <;> rcases last j _ hj with hj | ⟨hj, _⟩
    · exact h2 i j g1 g2 m' hi hj
    · cases hj
    · cases hi
    · cases hi

theorem silent_mem {tr l : List Op} (hl : Silent l) {g : Gor} {m : Msg} : Op.snd g m ∈ tr ++ l ↔ Op.snd g m ∈ tr := by
  constructor
  · intro h
    rcases List.mem_append.mp h with h | h
    · exact h
    · exact absurd rfl ((hl _ h).1 g m)
  · exact List.mem_append_left _

theorem ni_init : NI St.init := by
  constructor <;> simp [St.init, Orderly]

theorem NI.grow {s s' : St} (N : NI s) (l : List Op) (htr : s'.tr = s.tr ++ l) (hs : s.sends ≤ s'.sends) (lp : ∀ g n, Op.snd g (.prod n) ∈ l → n < s'.sends) (la : ∀ g n, Op.snd g (.pass n) ∈ l → n < s'.sends)
    (hb : ∀ b, s.bst b ≠ .opn → s'.bst b ≠ .opn) (lj : ∀ g b, Op.snd g (.job b) ∈ l → s'.bst b ≠ .opn)
    (cp : ∀ r k ob, s'.rst r = .cli k ob → s.rst r = .cli k ob ∨ ∃ g, Op.snd g (.prod k) ∈ l) (cw : ∀ r k, s'.rst r = .way k → s.rst r = .way k ∨ ∃ g, Op.snd g (.pass k) ∈ l)
    (cs : ∀ b, s'.bst b = .sent → s.bst b = .sent ∨ ∃ g, Op.snd g (.job b) ∈ l) (ho : Orderly (s.tr ++ l)) : NI s' := by
  obtain ⟨n1, n2, n3, n4, n5, n6, n7⟩ := N
  refine ⟨fun g n h => ?_, fun g n h => ?_, fun g b h => ?_, fun r k ob h => ?_, fun r k h => ?_, fun b h => ?_, by rw [htr]; exact ho⟩
  · rw [htr] at h
    rcases List.mem_append.mp h with h | h
    · exact Nat.lt_of_lt_of_le (n1 g n h) hs
    · exact lp g n h
  · rw [htr] at h
    rcases List.mem_append.mp h with h | h
    · exact Nat.lt_of_lt_of_le (n2 g n h) hs
    · exact la g n h
  · rw [htr] at h
    rcases List.mem_append.mp h with h | h
    · exact hb b (n3 g b h)
    · exact lj g b h
  · rw [htr]
    rcases cp r k ob h with h | ⟨g, h⟩
    · exact (n4 r k ob h).imp fun g hg => List.mem_append_left _ hg
    · exact ⟨g, List.mem_append_right _ h⟩
  · rw [htr]
    rcases cw r k h with h | ⟨g, h⟩
    · exact (n5 r k h).imp fun g hg => List.mem_append_left _ hg
    · exact ⟨g, List.mem_append_right _ h⟩
  · rw [htr]
    rcases cs b h with h | ⟨g, h⟩
    · exact (n6 b h).imp fun g hg => List.mem_append_left _ hg
    · exact ⟨g, List.mem_append_right _ h⟩

/-- One object changes its place. -/
theorem NI.one {s s' : St} (N : NI s) {r : Nat} {X : RSt} (l : List Op) (htr : s'.tr = s.tr ++ l) (h1 : s'.rst = upd s.rst r X) (hs : s.sends ≤ s'.sends) (h4 : s'.bst = s.bst) (lp : ∀ g n, Op.snd g (.prod n) ∈ l → n < s'.sends) (la : ∀ g n, Op.snd g (.pass n) ∈ l → n < s'.sends)
    (lj : ∀ g b, Op.snd g (.job b) ∉ l) (cp : ∀ k ob, X = .cli k ob → ∃ g, Op.snd g (.prod k) ∈ l) (cw : ∀ k, X = .way k → ∃ g, Op.snd g (.pass k) ∈ l) (ho : Orderly (s.tr ++ l)) : NI s' := by
  refine N.grow l htr hs lp la (fun b h => by rw [h4]; exact h) (fun g b h => absurd h (lj g b)) (fun i k ob h => ?_) (fun i k h => ?_) (fun b h => by rw [h4] at h; exact .inl h) ho
  · rw [h1] at h
    by_cases hir : i = r
    · subst hir; rw [upd_same] at h; exact .inr (cp k ob h)
    · rw [upd_ne _ _ hir] at h; exact .inl h
  · rw [h1] at h
    by_cases hir : i = r
    · subst hir; rw [upd_same] at h; exact .inr (cw k h)
    · rw [upd_ne _ _ hir] at h; exact .inl h

theorem ni_step {s s' : St} {x : Act} (N : NI s) (I : SI s) (h : step s x = some s') : NI s' := by
  have freshP : ∀ g', Op.snd g' (.prod s.sends) ∉ s.tr := fun g' h => by have := N.pr g' _ h; omega
  have freshA : ∀ g', Op.snd g' (.pass s.sends) ∉ s.tr := fun g' h => by have := N.pa g' _ h; omega
  cases x with
  | make g =>
    simp only [step, Option.some.injEq] at h
    subst h
    exact N.one _ rfl rfl (Nat.le_refl _) rfl (by simp) (by simp) (by simp) (by simp) (by simp) (N.ord.silent (by simp [Silent]))
  | borrow g r =>
    simp only [step] at h
    split at h
    · simp only [Option.some.injEq] at h
      subst h
      exact N.one _ rfl rfl (Nat.le_refl _) rfl (by simp) (by simp) (by simp) (by simp) (by simp) (N.ord.silent (by simp [Silent]))
    · cases h
  | use r =>
    simp only [step] at h
    split at h
    · simp only [Option.some.injEq] at h
      subst h
      exact N.grow _ rfl (Nat.le_refl _) (by simp) (by simp) (fun _ h => h) (by simp) (fun _ _ _ h => .inl h) (fun _ _ h => .inl h) (fun _ h => .inl h) (N.ord.silent (by simp [Silent]))
    · cases h
  | release r =>
    simp only [step] at h
    split at h
    · simp only [Option.some.injEq] at h
      subst h
      exact N.one _ rfl rfl (Nat.le_refl _) rfl (by simp) (by simp) (by simp) (by simp) (by simp) (N.ord.silent (by simp [Silent]))
    · cases h
  | give r =>
    simp only [step] at h
    split at h
    · rename_i g hg
      simp only [Option.some.injEq] at h
      subst h
      exact N.one _ rfl rfl (Nat.le_succ _) rfl (by simp) (by simp) (by simp) (by simp) (by simp) (N.ord.send freshA)
    · cases h
  | get r g =>
    simp only [step] at h
    split at h
    · rename_i k hk
      simp only [Option.some.injEq] at h
      subst h
      exact N.one _ rfl rfl (Nat.le_refl _) rfl (by simp) (by simp) (by simp) (by simp) (by simp) (N.ord.receive (N.cw r k hk))
    · cases h
  | txn r n owned =>
    simp only [step] at h
    split at h
    · rename_i g hg
      split at h
      · simp only [Option.some.injEq] at h
        subst h
        refine N.one _ rfl rfl (Nat.le_succ _) rfl (by simp) (by simp) (by simp) (by simp) (by simp) ?_
        have h1 := N.ord.silent (l := [.lock g (.node n), .acc g (.obj r) true]) (by simp [Silent])
        have h2 := h1.send (g := g) (m := .prod s.sends) (fun g' h => freshP g' (by simpa using h))
        have h3 := h2.silent (l := [.unlock g (.node n)]) (by simp [Silent])
        simpa using h3
      · simp only [Option.some.injEq] at h
        subst h
        exact N.one _ rfl rfl (Nat.le_refl _) rfl (by simp) (by simp) (by simp) (by simp) (by simp) (N.ord.silent (by simp [Silent]))
    · cases h
  | flush r g =>
    simp only [step] at h
    split at h
    · rename_i n hg
      simp only [Option.some.injEq] at h
      subst h
      refine N.one _ rfl rfl (Nat.le_succ _) rfl (by simp) (by simp) (by simp) (by simp) (by simp) ?_
      have h1 := N.ord.silent (l := [.lock g (.node n), .acc g (.obj r) true]) (by simp [Silent])
      have h2 := h1.send (g := g) (m := .prod s.sends) (fun g' h => freshP g' (by simpa using h))
      have h3 := h2.silent (l := [.unlock g (.node n)]) (by simp [Silent])
      simpa using h3
    · cases h
  | solo r =>
    simp only [step] at h
    split at h
    · rename_i g hg
      simp only [Option.some.injEq] at h
      subst h
      refine N.one _ rfl rfl (Nat.le_succ _) rfl (by simp) (by simp) (by simp) (by simp) (by simp) ?_
      have h1 := N.ord.silent (l := [.acc g (.obj r) true]) (by simp [Silent])
      have h2 := h1.send (g := g) (m := .prod s.sends) (fun g' h => freshP g' (by simpa using h))
      simpa using h2
    · cases h
  | done r c =>
    simp only [step] at h
    split at h
    · rename_i k hg
      simp only [Option.some.injEq] at h
      subst h
      refine N.one _ rfl rfl (Nat.le_refl _) rfl (by simp) (by simp) (by simp) (by simp) (by simp) ?_
      have h1 := N.ord.receive (g := .cli c) (N.cp r k none hg)
      have h2 := h1.silent (l := [.acc (.cli c) (.obj r) true]) (by simp [Silent])
      simpa using h2
    · cases h
  | batch g rs =>
    simp only [step] at h
    split at h
    · simp only [Option.some.injEq] at h
      subst h
      refine N.grow [] (by simp) (Nat.le_refl _) (by simp) (by simp) (fun b h => ?_) (by simp) (fun i k ob h => ?_) (fun i k h => ?_) (fun b h => ?_) (by rw [List.append_nil]; exact N.ord)
      · have : b ≠ s.batches := fun hb => by subst hb; exact h (I.bn _ (Nat.le_refl _)).2
        simp only [upd_ne _ _ this]; exact h
      · simp only [] at h
        split at h
        · cases h
        · exact .inl h
      · simp only [] at h
        split at h
        · cases h
        · exact .inl h
      · by_cases hb : b = s.batches
        · subst hb; simp only [upd_same] at h; cases h
        · simp only [upd_ne _ _ hb] at h; exact .inl h
    · cases h
  | bprod r =>
    simp only [step] at h
    split at h
    · rename_i b hg
      simp only [Option.some.injEq] at h
      subst h
      refine N.one _ rfl rfl (Nat.le_succ _) rfl (by simp) (by simp) (by simp) (by simp) (by simp) ?_
      have h1 := N.ord.silent (l := [.acc (s.bown b) (.obj r) true]) (by simp [Silent])
      have h2 := h1.send (g := s.bown b) (m := .prod s.sends) (fun g' h => freshP g' (by simpa using h))
      simpa using h2
    · cases h
  | bdone r c =>
    simp only [step] at h
    split at h
    · rename_i k b hg
      have hopn : s.bst b = .opn := by
        by_contra hn
        have := I.l2 r k b hg
        rw [I.bo b hn] at this; cases this
      have h1 := N.ord.receive (g := .cli c) (N.cp r k (some b) hg)
      have h2 := h1.silent (l := [.acc (.cli c) (.obj r) true, .atom (.cli c) b]) (by simp [Silent])
      split at h
      · simp only [Option.some.injEq] at h
        subst h
        refine N.grow _ rfl (Nat.le_refl _) (by simp) (by simp) (fun b' h => ?_) (fun g b' h => ?_) (fun i k' ob h => ?_) (fun i k' h => ?_) (fun b' h => ?_) ?_
        · by_cases hb : b' = b
          · subst hb; simp [upd_same]
          · simp only [upd_ne _ _ hb]; exact h
        · simp at h; obtain ⟨_, rfl⟩ := h; simp [upd_same]
        · by_cases hir : i = r
          · subst hir; simp only [upd_same] at h; cases h
          · simp only [upd_ne _ _ hir] at h; exact .inl h
        · by_cases hir : i = r
          · subst hir; simp only [upd_same] at h; cases h
          · simp only [upd_ne _ _ hir] at h; exact .inl h
        · by_cases hb : b' = b
          · subst hb; exact .inr ⟨.cli c, by simp⟩
          · simp only [upd_ne _ _ hb] at h; exact .inl h
        · have h3 := h2.send (g := .cli c) (m := .job b) (fun g' h => N.jb g' b (by simpa using h) hopn)
          simpa using h3
      · simp only [Option.some.injEq] at h
        subst h
        exact N.one _ rfl rfl (Nat.le_refl _) rfl (by simp) (by simp) (by simp) (by simp) (by simp) (by simpa using h2)
    · cases h
  | call b =>
    simp only [step] at h
    split at h
    · rename_i hc
      simp only [Option.some.injEq] at h
      subst h
      refine N.grow _ rfl (Nat.le_refl _) (by simp) (by simp) (fun b' h => ?_) (by simp) (fun _ _ _ h => .inl h) (fun _ _ h => .inl h) (fun b' h => ?_) (N.ord.receive (N.cs b hc))
      · by_cases hb : b' = b
        · subst hb; simp [upd_same]
        · simp only [upd_ne _ _ hb]; exact h
      · by_cases hb : b' = b
        · subst hb; simp only [upd_same] at h; cases h
        · simp only [upd_ne _ _ hb] at h; exact .inl h
    · cases h
  | back r =>
    simp only [step] at h
    split at h
    · split at h
      · simp only [Option.some.injEq] at h
        subst h
        exact N.one [] (by simp) rfl (Nat.le_refl _) rfl (by simp) (by simp) (by simp) (by simp) (by simp) (by rw [List.append_nil]; exact N.ord)
      · cases h
    · cases h

theorem ni_reach {s : St} (hs : Reach s) : NI s := by
  induction hs with
  | init => exact ni_init
  | step x h0 h ih => exact ni_step ih (si_reach h0) h

/-- An access after which its goroutine does nothing more happens before nothing. -/
theorem not_before {tr : List Op} {p : Nat} {g : Gor} {L : Loc} {w : Bool} (hp : tr[p]? = some (.acc g L w)) (hl : ∀ q o, p < q → tr[q]? = some o → o.gor ≠ g) : ∀ q, ¬ Before tr p q := by
  intro q h
  generalize hp' : p = p' at h
  induction h with
  | same hij h1 h2 h3 => subst hp'; rw [hp] at h1; cases h1; exact hl _ _ hij h2 h3.symm
  | chan _ h1 _ => subst hp'; rw [hp] at h1; cases h1
  | lock _ h1 _ => subst hp'; rw [hp] at h1; cases h1
  | atom _ h1 _ => subst hp'; rw [hp] at h1; cases h1
  | trans _ _ ih _ => exact ih hp'

theorem reach_run {s s' : St} (hs : Reach s) (acts : List Act) (h : run s acts = some s') : Reach s' := by
  induction acts generalizing s with
  | nil => simp only [run, Option.some.injEq] at h; subst h; exact hs
  | cons x xs ih =>
    simp only [run, Option.bind_eq_some_iff] at h
    obtain ⟨s1, h1, h2⟩ := h
    exact ih (.step x hs h1) h2

end Verif.Loan
