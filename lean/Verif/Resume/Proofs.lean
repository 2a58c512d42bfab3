import Verif.Resume.Model
/-
Proofs for C108.
-/
set_option linter.unusedSectionVars false
set_option linter.unusedSimpArgs false
set_option linter.unusedVariables false
namespace Verif.Resume

theorem take_range' (k s n : Nat) : (List.range' s n).take k = List.range' s (min k n) := by
  apply List.ext_getElem
  · simp
  · intro i h1 h2
    simp

/-- `a`: the first record of all; `N`: the first that is not yet in a transaction; `p`: how many are handled beyond. -/
structure Inv (c : Cfg) (s : S) (a N p : Nat) : Prop where
  first : c.atEnd = false → a = c.first.getD 0
  le : a ≤ N
  seq : s.old ++ s.done = List.range' a (N - a)
  pend : s.pend = List.range' N p
  size : N + p ≤ s.size
  empty : s.log = [] → s.done = [] ∧ (clientOffset c s = N ∨ (s.group = none ∧ c.atEnd = true))
  nogroup : s.group = none → s.old = []
  last : s.log ≠ [] → s.log.getLast? = some N
  bound : ∀ v ∈ s.log, 0 < v ∧ v ≤ N
  group : s.log ≠ [] → clientOffset c s ≤ N ∨ (s.group = none ∧ c.atEnd = true)
  read : s.read ≤ s.log.length
  none : (∀ hi pos, s.phase ≠ .ready hi pos) → p = 0
  assigned : ∀ st, s.phase = .assigned st → st ≤ N ∧ (s.log = [] → st = N)
  ready : ∀ hi pos, s.phase = .ready hi pos → pos ≤ N + p ∧ (hi = ((N + p : Nat) : Int) ∨ (hi = -1 ∧ pos = N + p ∧ p = 0))

theorem watermark_nil {s : S} (h : s.log = []) : watermark s = -1 := by simp [watermark, h]

theorem watermark_mem {s : S} (h : watermark s ≠ -1) : ∃ v ∈ s.log, watermark s = (v : Int) := by
  unfold watermark at h ⊢
  split
  · rename_i v hv
    exact ⟨v, List.mem_of_mem_take (List.mem_of_getLast? hv), rfl⟩
  · rename_i hv
    rw [hv] at h; exact absurd rfl h

theorem watermark_full {s : S} (h : s.read = s.log.length) {v : Nat} (hv : s.log.getLast? = some v) : watermark s = (v : Int) := by
  unfold watermark
  rw [h, List.take_length, hv]

theorem watermark_zero {s : S} (h : s.read ≠ 0) (hl : s.log ≠ []) : watermark s ≠ -1 := by
  unfold watermark
  cases hw : (s.log.take s.read).getLast? with
  | some v => simp only; omega
  | none =>
    rw [List.getLast?_eq_none_iff, List.take_eq_nil_iff] at hw
    rcases hw with hw | hw
    · exact absurd hw h
    · exact absurd hw hl

theorem inv_init (c : Cfg) (n : Nat) (hn : ∀ g ∈ c.first, g ≤ n) : ∃ a N p, Inv c (S.init c n) a N p := by
  have hN : clientOffset c (S.init c n) ≤ n := by
    unfold clientOffset S.init
    cases hf : c.first with
    | some g => exact hn g (by simp [hf])
    | none => simp only; split <;> omega
  refine ⟨clientOffset c (S.init c n), clientOffset c (S.init c n), 0, ?_⟩
  constructor
  · intro he
    unfold clientOffset S.init
    cases c.first <;> simp [he]
  · exact Nat.le_refl _
  · simp [S.init]
  · simp [S.init]
  · simpa [S.init] using hN
  · intro _; exact ⟨rfl, Or.inl rfl⟩
  · intro _; rfl
  · intro h; exact absurd rfl h
  · intro v hv; simp [S.init] at hv
  · intro h; exact absurd rfl h
  · exact Nat.le_refl _
  · intro _; rfl
  · intro st h; simp [S.init] at h
  · intro hi pos h; simp [S.init] at h

theorem blind_step {c : Cfg} {s s' : S} {x : Act} (h : step c s x = some s') (hb : s'.blind = false) : s.blind = false := by
  cases x <;> simp only [step] at h <;> (repeat' split at h) <;> (first | cases h; done | skip) <;>
    simp only [Option.some.injEq] at h <;> subst h <;> first | exact hb | skip
  simp only [Bool.or_eq_false_iff] at hb
  exact hb.1

theorem co_eq {c : Cfg} {s s' : S} (hg : s'.group = s.group) (h : ¬ (s.group = none ∧ c.atEnd = true)) : clientOffset c s' = clientOffset c s := by
  unfold clientOffset
  rw [hg]
  cases hgr : s.group with
  | some g => rfl
  | none =>
    have : c.atEnd = false := by
      by_contra he
      exact h ⟨hgr, by simpa using he⟩
    simp [this]

theorem inv_step {c : Cfg} {s s' : S} {x : Act} {a N p : Nat} (I : Inv c s a N p) (hw : OneWay s x) (h : step c s x = some s')
    (hb : s'.blind = false) : ∃ a' N' p', Inv c s' a' N' p' := by
  cases x with
  | arrive =>
    simp only [step, Option.some.injEq] at h
    subst h
    refine ⟨a, N, p, { I with size := ?_, empty := ?_, group := ?_ }⟩
    · have := I.size; show N + p ≤ s.size + 1; omega
    · intro hl
      obtain ⟨h1, h2⟩ := I.empty hl
      refine ⟨h1, ?_⟩
      by_cases hg : s.group = none ∧ c.atEnd = true
      · exact Or.inr hg
      · left
        exact (co_eq (s := s) (s' := { s with size := s.size + 1 }) rfl hg).trans (h2.resolve_right hg)
    · intro hl
      by_cases hg : s.group = none ∧ c.atEnd = true
      · exact Or.inr hg
      · left
        exact Nat.le_trans (Nat.le_of_eq (co_eq (s := s) (s' := { s with size := s.size + 1 }) rfl hg)) ((I.group hl).resolve_right hg)
  | readLog =>
    simp only [step] at h
    split at h
    · cases h
      exact ⟨a, N, p, { I with read := by assumption }⟩
    · cases h
  | assign =>
    simp only [step] at h
    split at h
    · rename_i hp
      simp only [Option.some.injEq] at h
      subst h
      simp only [Bool.or_eq_false_iff] at hb
      have hp0 : p = 0 := I.none (by rw [hp]; intro _ _ h; cases h)
      by_cases hl : s.log = []
      · have hwm : watermark s = -1 := watermark_nil hl
        have hst : adjust (watermark s) (clientOffset c s) = clientOffset c s := by rw [hwm]; rfl
        rw [hst]
        obtain ⟨h1, h2⟩ := I.empty hl
        by_cases hg : s.group = none ∧ c.atEnd = true
        · have ho := I.nogroup hg.1
          have hco : clientOffset c s = s.size := by simp [clientOffset, hg.1, hg.2]
          refine ⟨s.size, s.size, 0, ?_⟩
          constructor
          · intro he; rw [hg.2] at he; cases he
          · exact Nat.le_refl _
          · show s.old ++ s.done = _; rw [ho, h1]; simp
          · show s.pend = _; rw [I.pend, hp0]; rfl
          · exact Nat.le_refl _
          · intro _; exact ⟨h1, Or.inr hg⟩
          · intro _; exact ho
          · intro hn; exact absurd hl hn
          · intro v hv; simp only at hv; rw [hl] at hv; cases hv
          · intro hn; exact absurd hl hn
          · exact I.read
          · intro _; rfl
          · intro st hs; simp only [Phase.assigned.injEq] at hs; rw [← hs, hco]; exact ⟨Nat.le_refl _, fun _ => rfl⟩
          · intro hi pos hs; cases hs
        · have h3 := h2.resolve_right hg
          refine ⟨a, N, p, { I with none := ?_, assigned := ?_, ready := ?_ }⟩
          · intro _; exact hp0
          · intro st hs; simp only [Phase.assigned.injEq] at hs; rw [← hs, h3]; exact ⟨Nat.le_refl _, fun _ => rfl⟩
          · intro hi pos hs; cases hs
      · refine ⟨a, N, p, { I with none := ?_, assigned := ?_, ready := ?_ }⟩
        · intro _; exact hp0
        · intro st hs
          simp only [Phase.assigned.injEq] at hs
          refine ⟨?_, fun hn => absurd hn hl⟩
          rw [← hs]
          by_cases hwm : watermark s = -1
          · have hst : adjust (watermark s) (clientOffset c s) = clientOffset c s := by rw [hwm]; rfl
            rw [hst]
            by_cases hg : s.group = none ∧ c.atEnd = true
            · exfalso
              have hr : s.read = 0 := by
                by_contra hr
                exact watermark_zero hr hl hwm
              have := hb.2
              simp [hg.1, hg.2, hr] at this
              exact hl this
            · exact (I.group hl).resolve_right hg
          · obtain ⟨v, hv, hv'⟩ := watermark_mem hwm
            have := I.bound v hv
            unfold adjust
            rw [hv', if_pos (by omega)]
            simpa using this.2
        · intro hi pos hs; cases hs
    · cases h
  | ready =>
    simp only [step] at h
    split at h
    · rename_i st hp
      split at h
      · rename_i hr
        simp only [Option.some.injEq] at h
        subst h
        have hp0 : p = 0 := I.none (by rw [hp]; intro _ _ h; cases h)
        obtain ⟨h1, h2⟩ := I.assigned st hp
        refine ⟨a, N, p, { I with none := ?_, assigned := ?_, ready := ?_ }⟩
        · intro _; exact hp0
        · intro st hs; cases hs
        · intro hi pos hs
          simp only [Phase.ready.injEq] at hs
          obtain ⟨e1, e2⟩ := hs
          subst hp0 e1 e2
          refine ⟨by omega, ?_⟩
          by_cases hl : s.log = []
          · exact Or.inr ⟨watermark_nil hl, by rw [h2 hl]; rfl, rfl⟩
          · exact Or.inl (by rw [watermark_full hr (I.last hl)]; rfl)
      · cases h
    · cases h
  | give =>
    simp only [step] at h
    split at h
    · rename_i hi pos hp
      obtain ⟨h1, h2⟩ := I.ready hi pos hp
      have hsz := I.size
      split at h
      · rename_i hlt
        split at h
        · rename_i hle
          simp only [Option.some.injEq] at h
          subst h
          have hpos : pos = N + p := by
            rcases h2 with h2 | h2
            · omega
            · exact h2.2.1
          refine ⟨a, N, p + 1, { I with pend := ?_, size := ?_, none := ?_, assigned := ?_, ready := ?_ }⟩
          · show s.pend ++ [pos] = _
            rw [List.range'_1_concat, I.pend, hpos]
          · show N + (p + 1) ≤ s.size; omega
          · intro hn; exact absurd rfl (hn _ _)
          · intro st hs; cases hs
          · intro hi' pos' hs
            simp only [Phase.ready.injEq] at hs
            obtain ⟨e1, e2⟩ := hs
            subst e1 e2
            exact ⟨by omega, Or.inl (by rw [hpos]; rfl)⟩
        · rename_i hle
          simp only [Option.some.injEq] at h
          subst h
          refine ⟨a, N, p, { I with none := ?_, assigned := ?_, ready := ?_ }⟩
          · intro hn; exact absurd rfl (hn _ _)
          · intro st hs; cases hs
          · intro hi' pos' hs
            simp only [Phase.ready.injEq] at hs
            obtain ⟨e1, e2⟩ := hs
            subst e1 e2
            rcases h2 with h2 | h2
            · exact ⟨by omega, Or.inl h2⟩
            · omega
      · cases h
    · cases h
  | commit k =>
    simp only [step] at h
    split at h
    · rename_i o ho
      simp only [Option.some.injEq] at h
      subst h
      have hpend := I.pend
      rw [hpend, take_range', List.getLast?_range'] at ho
      split at ho
      · cases ho
      · rename_i hk
        simp only [Option.some.injEq] at ho
        have hle := I.le
        have ho' : o + 1 = N + min k p := by omega
        refine ⟨a, N + min k p, p - min k p, ?_⟩
        have hdone : s.done ++ s.pend.take k = s.done ++ List.range' N (min k p) := by rw [hpend, take_range']
        constructor
        · exact I.first
        · omega
        · show s.old ++ (s.done ++ s.pend.take k) = _
          rw [hdone, ← List.append_assoc, I.seq]
          have e1 : N = a + (N - a) := by omega
          conv => lhs; arg 2; rw [e1]
          rw [List.range'_append_1]
          congr 1
          omega
        · show s.pend.drop k = _
          rw [hpend, List.drop_range']
          by_cases hkp : k ≤ p
          · rw [Nat.min_eq_left hkp]; simp
          · have : p - k = 0 := by omega
            have : p - min k p = 0 := by omega
            simp [*]
        · show N + min k p + (p - min k p) ≤ s.size
          have := I.size; omega
        · intro hl; simp at hl
        · exact I.nogroup
        · intro _; show (s.log ++ [o + 1]).getLast? = _; simp [ho']
        · intro v hv
          rcases List.mem_append.1 hv with hv | hv
          · have := I.bound v hv; omega
          · simp at hv; omega
        · intro _
          show clientOffset c s ≤ _ ∨ _
          by_cases hl : s.log = []
          · rcases (I.empty hl).2 with h2 | h2
            · left; omega
            · exact Or.inr h2
          · rcases I.group hl with h2 | h2
            · left; omega
            · exact Or.inr h2
        · show s.read ≤ (s.log ++ [o + 1]).length
          have := I.read; simp; omega
        · intro hn
          have := I.none hn
          omega
        · intro st hs
          have := I.none (by rw [hs]; intro _ _ h; cases h)
          omega
        · intro hi pos hs
          obtain ⟨h1, h2⟩ := I.ready hi pos hs
          refine ⟨by omega, ?_⟩
          rcases h2 with h2 | h2
          · left; rw [h2]; congr 1; omega
          · omega
    · cases h
  | autocommit v =>
    simp only [step] at h
    split at h
    · rename_i hv
      simp only [Option.some.injEq] at h
      subst h
      have hne : s.log ≠ [] := by
        intro hl
        rw [(I.empty hl).1] at hv
        simp at hv
      have hmem : v - 1 ∈ s.old ++ s.done := List.mem_append_right _ hv.2.2
      rw [I.seq, List.mem_range'_1] at hmem
      have hle := I.le
      refine ⟨a, N, p, { I with empty := ?_, nogroup := ?_, group := ?_ }⟩
      · intro hl; exact absurd hl hne
      · intro hn; cases hn
      · intro _; left; show v ≤ N; omega
    · cases h
  | revoke =>
    simp only [step, Option.some.injEq] at h
    subst h
    refine ⟨a, N, 0, { I with pend := rfl, size := ?_, none := ?_, assigned := ?_, ready := ?_ }⟩
    · have := I.size; show N + 0 ≤ s.size; omega
    · intro _; rfl
    · intro st hs; cases hs
    · intro hi pos hs; cases hs
  | restart =>
    simp only [step, Option.some.injEq] at h
    subst h
    refine ⟨a, N, 0, { I with pend := rfl, size := ?_, none := ?_, assigned := ?_, ready := ?_, read := ?_ }⟩
    · have := I.size; show N + 0 ≤ s.size; omega
    · exact Nat.zero_le _
    · intro _; rfl
    · intro st hs; cases hs
    · intro hi pos hs; cases hs
  | foreign n =>
    simp only [step] at h
    split at h
    · rename_i hp
      simp only [Option.some.injEq] at h
      subst h
      have hl : s.log = [] := hw
      obtain ⟨h1, h2⟩ := I.empty hl
      have hp0 : p = 0 := I.none (by rw [hp.1]; intro _ _ h; cases h)
      have hle := I.le
      have mk : ∀ a' M, (c.atEnd = false → a' = c.first.getD 0) → a' ≤ M → s.old ++ List.range' (clientOffset c s) n = List.range' a' (M - a') →
          M = clientOffset c s + n → ∃ a' N' p', Inv c { s with group := some (clientOffset c s + n), old := s.old ++ List.range' (clientOffset c s) n } a' N' p' := by
        intro a' M f1 f2 f3 f4
        refine ⟨a', M, 0, ?_⟩
        constructor
        · exact f1
        · exact f2
        · show (s.old ++ _) ++ s.done = _; rw [h1, List.append_nil]; exact f3
        · show s.pend = _; rw [I.pend, hp0]; rfl
        · show M + 0 ≤ s.size; omega
        · intro _; exact ⟨h1, Or.inl (by rw [f4]; rfl)⟩
        · intro hn; cases hn
        · intro hn; exact absurd hl hn
        · intro v hv; simp only at hv; rw [hl] at hv; cases hv
        · intro hn; exact absurd hl hn
        · exact I.read
        · intro _; rfl
        · intro st hs; simp only at hs; rw [hp.1] at hs; cases hs
        · intro hi pos hs; simp only at hs; rw [hp.1] at hs; cases hs
      by_cases hg : s.group = none ∧ c.atEnd = true
      · refine mk (clientOffset c s) (clientOffset c s + n) ?_ (by omega) ?_ rfl
        · intro he; rw [hg.2] at he; cases he
        · rw [I.nogroup hg.1, List.nil_append]; congr 1; omega
      · have h3 := h2.resolve_right hg
        refine mk a (N + n) I.first (by omega) ?_ (by rw [h3])
        have hs := I.seq
        rw [h1, List.append_nil] at hs
        rw [hs, h3]
        have e1 : N = a + (N - a) := by omega
        conv => lhs; arg 2; rw [e1]
        rw [List.range'_append_1]
        congr 1
        omega
    · cases h

theorem inv_reach {c : Cfg} {s : S} (h : Reach c s) (hb : s.blind = false) : ∃ a N p, Inv c s a N p := by
  induction h with
  | init n hn => exact inv_init c n hn
  | step x _ hw hs ih =>
    obtain ⟨a, N, p, I⟩ := ih (blind_step hs hb)
    exact inv_step I hw hs hb

theorem not_blind {c : Cfg} (hc : c.atEnd = false) {s : S} (h : Reach c s) : s.blind = false := by
  induction h with
  | init n hn => rfl
  | step x _ hw hs ih =>
    cases x <;> simp only [step] at hs <;> (repeat' split at hs) <;> (first | cases hs; done | skip) <;>
      simp only [Option.some.injEq] at hs <;> subst hs <;> first | exact ih | skip
    simp [ih, hc]

end Verif.Resume
