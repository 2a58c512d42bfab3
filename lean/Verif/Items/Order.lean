import Verif.Items.Proofs
/-
Messages are sent once, before they are received.
-/
namespace Verif.Items
open Verif.Eos (upd)

theorem Before.lt {tr : List Op} {i j : Nat} (h : Before tr i j) : i < j := by
  induction h with
  | same h => exact h
  | chan h => exact h
  | lock h => exact h
  | atom h => exact h
  | trans _ _ h1 h2 => omega

/-- What was sent so far. -/
structure NI (s : St) : Prop where
  go : ∀ g r, Op.snd g (.go r) ∈ s.tr → r < s.runs
  job : ∀ g b, Op.snd g (.job b) ∈ s.tr → s.bst b = .sent ∨ s.bst b = .called
  new : ∀ r, r < s.runs → ∃ g, Op.snd g (.go r) ∈ s.tr
  sent : ∀ b, s.bst b = .sent ∨ s.bst b = .called → ∃ g, Op.snd g (.job b) ∈ s.tr
  ord : Orderly s.tr

/-- Nothing is sent or received. -/
def Silent (l : List Op) : Prop := ∀ o ∈ l, (∀ g m, o ≠ .snd g m) ∧ ∀ g m, o ≠ .rcv g m

theorem Orderly.silent {tr l : List Op} (h : Orderly tr) (hl : Silent l) : Orderly (tr ++ l) := by
  obtain ⟨h1, h2⟩ := h
  constructor
  · intro j g m hj
    rcases get_append hj with hj | ⟨l1, l2, rfl, rfl⟩
    · obtain ⟨i, g', hi, hg⟩ := h1 j g m hj
      exact ⟨i, g', hi, get_left hg⟩
    · exact absurd rfl ((hl (.rcv g m) (by simp)).2 g m)
  · intro i j g g' m hi hj
    rcases get_append hi with hi | ⟨l1, l2, rfl, rfl⟩
    · rcases get_append hj with hj | ⟨m1, m2, rfl, rfl⟩
      · exact h2 i j g g' m hi hj
      · exact absurd rfl ((hl (.snd g' m) (by simp)).1 g' m)
    · exact absurd rfl ((hl (.snd g m) (by simp)).1 g m)

theorem Orderly.send {tr : List Op} {g : Gor} {m : Msg} (h : Orderly tr) (hn : ∀ g', Op.snd g' m ∉ tr) : Orderly (tr ++ [.snd g m]) := by
  obtain ⟨h1, h2⟩ := h
  have last : ∀ (p : Nat) (o : Op), (tr ++ [.snd g m])[p]? = some o → tr[p]? = some o ∨ (o = .snd g m ∧ p = tr.length) := by
    intro p o hp
    rcases get_append hp with hp | ⟨l1, l2, hl, rfl⟩
    · exact .inl hp
    · cases l1 with
      | nil => simp at hl; exact .inr ⟨hl.1.symm, rfl⟩
      | cons a l1 => simp at hl
  constructor
  · intro j g' m' hj
    rcases last j _ hj with hj | ⟨hj, _⟩
    · obtain ⟨i, g'', hi, hg⟩ := h1 j g' m' hj
      exact ⟨i, g'', hi, get_left hg⟩
    · cases hj
  · intro i j g1 g2 m' hi hj
    rcases last i _ hi with hi | ⟨hi, hil⟩ <;> rcases last j _ hj with hj | ⟨hj, hjl⟩
    · exact h2 i j g1 g2 m' hi hj
    · cases hj; exact absurd (List.mem_of_getElem? hi) (hn _)
    · cases hi; exact absurd (List.mem_of_getElem? hj) (hn _)
    · omega

theorem Orderly.receive {tr : List Op} {g : Gor} {m : Msg} (h : Orderly tr) (hn : ∃ g', Op.snd g' m ∈ tr) : Orderly (tr ++ [.rcv g m]) := by
  obtain ⟨h1, h2⟩ := h
  have last : ∀ (p : Nat) (o : Op), (tr ++ [.rcv g m])[p]? = some o → tr[p]? = some o ∨ (o = .rcv g m ∧ p = tr.length) := by
    intro p o hp
    rcases get_append hp with hp | ⟨l1, l2, hl, rfl⟩
    · exact .inl hp
    · cases l1 with
      | nil => simp at hl; exact .inr ⟨hl.1.symm, rfl⟩
      | cons a l1 => simp at hl
  constructor
  · intro j g' m' hj
    rcases last j _ hj with hj | ⟨hj, hjl⟩
    · obtain ⟨i, g'', hi, hg⟩ := h1 j g' m' hj
      exact ⟨i, g'', hi, get_left hg⟩
    · cases hj
      obtain ⟨g', hg'⟩ := hn
      obtain ⟨i, hi⟩ := List.mem_iff_getElem?.mp hg'
      exact ⟨i, g', by rw [hjl]; exact lt_of_get hi, get_left hi⟩
  · intro i j g1 g2 m' hi hj
    rcases last i _ hi with hi | ⟨hi, _⟩ <;> rcases last j _ hj with hj | ⟨hj, _⟩
    · exact h2 i j g1 g2 m' hi hj
    · cases hj
    · cases hi
    · cases hi

theorem ni_init : NI St.init := by
  constructor <;> simp [St.init, Orderly]

theorem silent_mem {tr l : List Op} (hl : Silent l) {g : Gor} {m : Msg} : Op.snd g m ∈ tr ++ l ↔ Op.snd g m ∈ tr := by
  constructor
  · intro h
    rcases List.mem_append.mp h with h | h
    · exact h
    · exact absurd rfl ((hl _ h).1 g m)
  · exact List.mem_append_left _

/-- A silent step. -/
theorem NI.silent {s s' : St} (N : NI s) (l : List Op) (htr : s'.tr = s.tr ++ l) (hl : Silent l) (hr : s'.runs = s.runs) (hb : ∀ b, s'.bst b = .sent ∨ s'.bst b = .called ↔ s.bst b = .sent ∨ s.bst b = .called) : NI s' := by
  obtain ⟨n1, n2, n3, n4, n5⟩ := N
  refine ⟨fun g r h => ?_, fun g b h => ?_, fun r h => ?_, fun b h => ?_, by rw [htr]; exact n5.silent hl⟩
  · rw [htr, silent_mem hl] at h; rw [hr]; exact n1 g r h
  · rw [htr, silent_mem hl] at h; rw [hb]; exact n2 g b h
  · rw [hr] at h; obtain ⟨g, hg⟩ := n3 r h; exact ⟨g, by rw [htr, silent_mem hl]; exact hg⟩
  · rw [hb] at h; obtain ⟨g, hg⟩ := n4 b h; exact ⟨g, by rw [htr, silent_mem hl]; exact hg⟩

/-- A batch is sent. -/
theorem NI.send {s s' : St} (N : NI s) {b : Nat} {g : Gor} (l : List Op) (htr : s'.tr = s.tr ++ (l ++ [.snd g (.job b)])) (hl : Silent l) (hr : s'.runs = s.runs) (hg : s.bst b = .given) (hb : s'.bst = upd s.bst b .sent) : NI s' := by
  obtain ⟨n1, n2, n3, n4, n5⟩ := N
  rw [← List.append_assoc] at htr
  refine ⟨fun g' r h => ?_, fun g' b' h => ?_, fun r h => ?_, fun b' h => ?_, ?_⟩
  · rw [htr, List.mem_append, silent_mem hl] at h
    rw [hr]
    rcases h with h | h
    · exact n1 g' r h
    · simp at h
  · rw [htr, List.mem_append, silent_mem hl] at h
    rw [hb]
    by_cases hbb : b' = b
    · subst hbb; rw [upd_same]; exact .inl rfl
    · rw [upd_ne _ _ hbb]
      rcases h with h | h
      · exact n2 g' b' h
      · simp at h; exact absurd h.2 hbb
  · rw [hr] at h; obtain ⟨g', hg'⟩ := n3 r h; exact ⟨g', by rw [htr, List.mem_append, silent_mem hl]; exact .inl hg'⟩
  · rw [hb] at h
    by_cases hbb : b' = b
    · subst hbb; exact ⟨g, by rw [htr]; simp⟩
    · rw [upd_ne _ _ hbb] at h
      obtain ⟨g', hg'⟩ := n4 b' h
      exact ⟨g', by rw [htr, List.mem_append, silent_mem hl]; exact .inl hg'⟩
  · rw [htr]
    refine (n5.silent hl).send fun g' h => ?_
    rw [silent_mem hl] at h
    have := n2 g' b h
    rw [hg] at this
    simp at this

theorem ni_step {s s' : St} {x : Act} (N : NI s) (I : SI s) (h : step s x = some s') : NI s' := by
  cases x with
  | batch w =>
    simp only [step, Option.some.injEq] at h
    subst h
    refine N.silent [.acc (.work w) (.list s.batches) true] rfl (by simp [Silent]) rfl fun b => ?_
    simp only []
    by_cases hbb : b = s.batches
    · subst hbb
      rw [upd_same]
      have : ¬ (s.bst s.batches = .sent ∨ s.bst s.batches = .called) := by rw [I.bf _ (Nat.le_refl _)]; simp
      simp [this]
    · rw [upd_ne _ _ hbb]
  | item b p =>
    simp only [step] at h
    split at h
    · simp only [Option.some.injEq] at h; subst h; exact N.silent _ rfl (by simp [Silent]) rfl fun b => Iff.rfl
    · cases h
  | give b =>
    simp only [step] at h
    split at h
    · rename_i hc
      simp only [Option.some.injEq] at h
      subst h
      refine N.silent [] (by simp) (by simp [Silent]) rfl fun b' => ?_
      simp only []
      by_cases hbb : b' = b
      · subst hbb; rw [upd_same, hc.2.1]; simp
      · rw [upd_ne _ _ hbb]
    · cases h
  | add i x =>
    simp only [step] at h
    split at h
    · simp only [Option.some.injEq] at h; subst h; exact N.silent _ rfl (by cases x <;> simp [Silent, touch]) (by cases x <;> rfl) fun b => by cases x <;> exact Iff.rfl
    · cases h
  | start g x =>
    simp only [step] at h
    split at h
    · simp only [Option.some.injEq] at h
      subst h
      obtain ⟨n1, n2, n3, n4, n5⟩ := N
      refine ⟨fun g' r h => ?_, fun g' b h => ?_, fun r h => ?_, fun b h => ?_, ?_⟩
      · simp only [List.mem_append] at h
        rcases h with h | h
        · have := n1 g' r h; simp only []; omega
        · simp at h; simp only []; omega
      · simp only [List.mem_append] at h
        rcases h with h | h
        · exact n2 g' b h
        · simp at h
      · simp only [] at h
        by_cases hr : r = s.runs
        · subst hr; exact ⟨g, by simp⟩
        · obtain ⟨g', hg'⟩ := n3 r (by omega); exact ⟨g', List.mem_append_left _ hg'⟩
      · obtain ⟨g', hg'⟩ := n4 b h; exact ⟨g', List.mem_append_left _ hg'⟩
      · have h1 := n5.silent (l := [.lock g, .acc g .locked true, .acc g (.slice x) false]) (by simp [Silent])
        have h2 := h1.send (g := g) (m := .go s.runs) (fun g' h => by
          rw [silent_mem (by simp [Silent])] at h
          have := n1 g' _ h
          omega)
        have h3 := h2.silent (l := [.unlock g]) (by simp [Silent])
        simpa using h3
    · cases h
  | begin r =>
    simp only [step] at h
    split at h
    · rename_i hc
      simp only [Option.some.injEq] at h
      subst h
      obtain ⟨n1, n2, n3, n4, n5⟩ := N
      exact ⟨fun g r h => n1 g r (by simpa using h), fun g b h => n2 g b (by simpa using h), fun r h => (n3 r h).imp fun g hg => List.mem_append_left _ hg, fun b h => (n4 b h).imp fun g hg => List.mem_append_left _ hg, n5.receive (n3 r hc.1)⟩
    · cases h
  | exec r i =>
    simp only [step] at h
    split at h
    · simp only [Option.some.injEq] at h; subst h; exact N.silent _ rfl (by simp [Silent]) rfl fun b => Iff.rfl
    · cases h
  | complete r i =>
    simp only [step] at h
    split at h
    · rename_i hc
      have hg := I.given hc.2.2
      split at h
      · simp only [Option.some.injEq] at h
        subst h
        exact N.send [.acc (.run r) (.slice (s.rx r)) false, .acc (.run r) (.list (s.ib i)) false] rfl (by simp [Silent]) rfl hg rfl
      · split at h
        · simp only [Option.some.injEq] at h
          subst h
          exact N.send [.acc (.run r) (.slice (s.rx r)) false, .acc (.run r) (.fixed i) false, .atom (.run r) (s.ib i), .acc (.run r) (.list (s.ib i)) false] rfl (by simp [Silent]) rfl hg rfl
        · simp only [Option.some.injEq] at h; subst h; exact N.silent _ rfl (by simp [Silent]) rfl fun b => Iff.rfl
    · cases h
  | look r i =>
    simp only [step] at h
    split at h
    · simp only [Option.some.injEq] at h; subst h; exact N.silent _ rfl (by simp [Silent]) rfl fun b => Iff.rfl
    · cases h
  | finish r =>
    simp only [step] at h
    split at h
    · simp only [Option.some.injEq] at h; subst h; exact N.silent _ rfl (by simp [Silent]) rfl fun b => Iff.rfl
    · cases h
  | flush r i x =>
    simp only [step] at h
    split at h
    · simp only [Option.some.injEq] at h; subst h; exact N.silent _ rfl (by cases x <;> simp [Silent, touch]) (by cases x <;> rfl) fun b => by cases x <;> exact Iff.rfl
    · cases h
  | call b =>
    simp only [step] at h
    split at h
    · rename_i hc
      simp only [Option.some.injEq] at h
      subst h
      obtain ⟨n1, n2, n3, n4, n5⟩ := N
      have hb : ∀ b', (upd s.bst b .called b' = .sent ∨ upd s.bst b .called b' = .called) ↔ (s.bst b' = .sent ∨ s.bst b' = .called) := by
        intro b'
        by_cases hbb : b' = b
        · subst hbb; rw [upd_same, hc.2]; simp
        · rw [upd_ne _ _ hbb]
      refine ⟨fun g r h => n1 g r (by simpa using h), fun g b' h => (hb b').mpr (n2 g b' (by simpa using h)), fun r h => (n3 r h).imp fun g hg => List.mem_append_left _ hg, fun b' h => (n4 b' ((hb b').mp h)).imp fun g hg => List.mem_append_left _ hg, ?_⟩
      have h1 := n5.receive (g := .work (s.own b)) (n4 b (.inl hc.2))
      have h2 := h1.silent (l := [.acc (.work (s.own b)) (.list b) false]) (by simp [Silent])
      simpa using h2
    · cases h
  | use i w =>
    simp only [step] at h
    split at h
    · simp only [Option.some.injEq] at h; subst h; exact N.silent _ rfl (by simp [Silent]) rfl fun b => Iff.rfl
    · cases h

theorem ni_reach {s : St} (hs : Reach s) : NI s := by
  induction hs with
  | init => exact ni_init
  | step x h0 h ih => exact ni_step ih (si_reach h0) h

/-- An access after which its goroutine does nothing more happens before nothing. -/
theorem not_before {tr : List Op} {p : Nat} {g : Gor} {L : Loc} {w : Bool} (hp : tr[p]? = some (.acc g L w)) (hl : ∀ q o, p < q → tr[q]? = some o → o.gor ≠ g) : ∀ q, ¬ Before tr p q := by
  intro q h
  generalize hp' : p = p' at h
  induction h with
  | same hij h1 h2 h3 => subst hp'; rw [hp] at h1; cases h1; exact hl _ _ hij h2 h3.symm
  | chan _ h1 _ => subst hp'; rw [hp] at h1; cases h1
  | lock _ h1 _ => subst hp'; rw [hp] at h1; cases h1
  | atom _ h1 _ => subst hp'; rw [hp] at h1; cases h1
  | trans _ _ ih _ => exact ih hp'

theorem reach_run {s s' : St} (hs : Reach s) (acts : List Act) (h : run s acts = some s') : Reach s' := by
  induction acts generalizing s with
  | nil => simp only [run, Option.some.injEq] at h; subst h; exact hs
  | cons x xs ih =>
    simp only [run, Option.bind_eq_some_iff] at h
    obtain ⟨s1, h1, h2⟩ := h
    exact ih (.step x hs h1) h2

end Verif.Items
