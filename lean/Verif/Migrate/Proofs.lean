import Verif.Migrate.Spec
import Mathlib.Tactic.Common
/-
Proofs for C117.
-/
namespace Verif.Migrate
variable {V D : Type} {a : App V D} {ext0 : Nat → D} {s s' : St V D}

theorem put_same {α : Type} (f : Nat → α) (i : Nat) (x : α) : put f i x i = x := by simp [put]

theorem put_other {α : Type} (f : Nat → α) {i j : Nat} (x : α) (h : j ≠ i) : put f i x j = f j := by simp [put, h]

theorem ahead_iff {e m : Nat} : ahead a s e m = true ↔ ∀ e', s.base ≤ e' → e' < e → a.key e' = a.key e → m ≤ s.ph e' := by
  simp only [ahead, List.all_eq_true, List.mem_range, Bool.or_eq_true, Bool.not_eq_true', Bool.and_eq_false_iff, decide_eq_false_iff_not, decide_eq_true_eq, beq_eq_false_iff_ne]
  constructor
  · intro h e' h1 h2 h3
    rcases h e' h2 with (h | h) | h
    · exact absurd h1 h
    · exact absurd h3 h
    · exact h
  · intro h e' h2
    by_cases h1 : s.base ≤ e'
    · by_cases h3 : a.key e' = a.key e
      · exact .inr (h e' h1 h2 h3)
      · exact .inl (.inr h3)
    · exact .inl (.inl h1)

theorem seqVal_skip {k m : Nat} : ∀ d, (∀ e, m ≤ e → e < m + d → a.key e ≠ k) → seqVal a ext0 k (m + d) = seqVal a ext0 k m
  | 0, _ => rfl
  | d + 1, h => by
    have h1 := h (m + d) (by omega) (by omega)
    show seqVal a ext0 k (m + d + 1) = _
    rw [seqVal, if_neg h1]
    exact seqVal_skip d fun e h1 h2 => h e h1 (by omega)

theorem seqExt_skip {k m : Nat} : ∀ d, (∀ e, m ≤ e → e < m + d → a.key e ≠ k) → seqExt a ext0 k (m + d) = seqExt a ext0 k m
  | 0, _ => rfl
  | d + 1, h => by
    have h1 := h (m + d) (by omega) (by omega)
    show seqExt a ext0 k (m + d + 1) = _
    rw [seqExt, if_neg h1]
    exact seqExt_skip d fun e h1 h2 => h e h1 (by omega)

theorem rebuilt_seq {k : Nat} : ∀ m, (∀ e, e < m → s.out e = seqVal a ext0 (a.key e) (e + 1)) → rebuilt a.key s.out k m = seqVal a ext0 k m
  | 0, _ => rfl
  | m + 1, h => by
    by_cases hk : a.key m = k
    · rw [rebuilt, if_pos hk, h m (by omega), hk]
    · rw [rebuilt, if_neg hk, seqVal, if_neg hk]
      exact rebuilt_seq m fun e he => h e (by omega)

/-- How far events are. -/
structure PI (a : App V D) (s : St V D) : Prop where
  bc : s.base ≤ s.com
  cn : s.com ≤ s.n
  pos : ∀ e, s.base ≤ e → e < s.n → 1 ≤ s.ph e
  mono : ∀ e e' m, s.base ≤ e → e < e' → e' < s.n → a.key e = a.key e' → 2 ≤ m → m ≤ s.ph e' → m ≤ s.ph e

/-- An event goes on. -/
theorem PI.move (P : PI a s) {e m : Nat} (hb : s.base ≤ e) (hn : e < s.n) (hp : s.ph e + 1 = m) (ha : ahead a s e m = true) (h1 : s'.base = s.base) (h2 : s'.com = s.com) (h3 : s'.n = s.n) (h4 : s'.ph = put s.ph e m) :
    PI a s' := by
  rw [ahead_iff] at ha
  refine ⟨by rw [h1, h2]; exact P.bc, by rw [h2, h3]; exact P.cn, ?_, ?_⟩
  · intro x hx hx'
    rw [h1] at hx
    rw [h3] at hx'
    rw [h4]
    by_cases hxe : x = e
    · rw [hxe, put_same]; omega
    · rw [put_other _ _ hxe]; exact P.pos x hx hx'
  · intro x y q hx hxy hy hk hq hqy
    rw [h1] at hx
    rw [h3] at hy
    rw [h4] at hqy ⊢
    by_cases hye : y = e
    · subst hye
      rw [put_same] at hqy
      rw [put_other _ _ (by omega)]
      have := ha x hx hxy hk
      omega
    · rw [put_other _ _ hye] at hqy
      have := P.mono x y q hx hxy hy hk hq hqy
      by_cases hxe : x = e
      · rw [hxe, put_same]; rw [hxe] at this; omega
      · rw [put_other _ _ hxe]; exact this

theorem pi_step {x : Act} (P : PI a s) (h : step a s x = some s') : PI a s' := by
  cases x with
  | handle =>
    simp only [step, Option.some.injEq] at h
    subst h
    obtain ⟨bc, cn, pos, mono⟩ := P
    refine ⟨bc, by simp; omega, ?_, ?_⟩
    · intro x hx hx'
      simp only [] at hx hx' ⊢
      by_cases hxn : x = s.n
      · rw [hxn, put_same]; exact Nat.le_refl 1
      · rw [put_other _ _ hxn]; exact pos x hx (by omega)
    · intro x y q hx hxy hy hk hq hqy
      simp only [] at hx hy hqy ⊢
      by_cases hyn : y = s.n
      · rw [hyn, put_same] at hqy; omega
      · rw [put_other _ _ hyn] at hqy
        rw [put_other _ _ (by omega)]
        exact mono x y q hx hxy (by omega) hk hq hqy
  | read e =>
    simp only [step] at h
    split at h
    · rename_i hc
      simp only [Option.some.injEq] at h
      subst h
      exact P.move hc.1 hc.2.1 (m := 2) (by omega) hc.2.2.2 rfl rfl rfl rfl
    · cases h
  | fin e =>
    simp only [step] at h
    split at h
    · rename_i hc
      simp only [Option.some.injEq] at h
      subst h
      exact P.move hc.1 hc.2.1 (m := 3) (by omega) hc.2.2.2 rfl rfl rfl rfl
    · cases h
  | write e =>
    simp only [step] at h
    split at h
    · rename_i hc
      simp only [Option.some.injEq] at h
      subst h
      exact P.move hc.2.1 hc.2.2.1 (m := 4) (by omega) hc.2.2.2.2 rfl rfl rfl rfl
    · cases h
  | commit w =>
    simp only [step] at h
    split at h
    · rename_i hc
      simp only [Option.some.injEq] at h
      subst h
      exact ⟨Nat.le_trans P.bc hc.1, hc.2.1, P.pos, P.mono⟩
    · cases h
  | crash =>
    simp only [step, Option.some.injEq] at h
    subst h
    exact ⟨Nat.le_refl _, Nat.le_refl _, fun e h1 h2 => by simp only [] at h1 h2; omega, fun e e' m h1 h2 h3 => by simp only [] at h1 h3; omega⟩

/-- What the store and the change log have. -/
structure VI (a : App V D) (ext0 : Nat → D) (s : St V D) : Prop extends PI a s where
  oc : ∀ e, e < s.com → s.out e = seqVal a ext0 (a.key e) (e + 1)
  fo : ∀ e, s.base ≤ e → e < s.n → 3 ≤ s.ph e → s.out e = seqVal a ext0 (a.key e) (e + 1)
  st : ∀ k m, s.base ≤ m → m ≤ s.n → (∀ e, s.base ≤ e → e < m → a.key e = k → 3 ≤ s.ph e) → (∀ e, m ≤ e → e < s.n → a.key e = k → s.ph e < 3) → s.store k = seqVal a ext0 k m
  sm : ∀ e, s.base ≤ e → e < s.n → 3 ≤ s.ph e → (s.store (a.key e)).isSome = true
  mg : ∀ e, s.base ≤ e → e < s.n → s.mig e = true → (s.store (a.key e)).isSome = true
  ex : ∀ k, s.store k = none → s.ext k = ext0 k
  rs : ∀ e, s.base ≤ e → e < s.n → s.ph e = 2 → s.store (a.key e) = none → s.res e = ext0 (a.key e)

/-- The finalizer computes the next value. -/
theorem VI.final (I : VI a ext0 s) (hd : NoDelete a) {e : Nat} (hb : s.base ≤ e) (hn : e < s.n) (hp : s.ph e = 2) (ha : ahead a s e 3 = true) :
    final a s e = seqVal a ext0 (a.key e) (e + 1) ∧ (final a s e).isSome = true := by
  rw [ahead_iff] at ha
  have hs : s.store (a.key e) = seqVal a ext0 (a.key e) e := by
    refine I.st _ e hb (by omega) (fun x h1 h2 h3 => ha x h1 h2 h3) fun x h1 h2 h3 => ?_
    by_contra hc
    by_cases hxe : x = e
    · rw [hxe] at hc; omega
    · have := I.mono e x 3 hb (by omega) h2 h3.symm (by omega) (by omega)
      omega
  unfold Migrate.final
  rw [seqVal, if_pos rfl, ← hs]
  cases hv : s.store (a.key e) with
  | none =>
    have hm : s.mig e = false := by
      by_contra hm
      have := I.mg e hb hn (by simpa using hm)
      rw [hv] at this
      cases this
    simp only [hm, Bool.not_false, Option.isNone_none, Bool.and_self, if_true, I.rs e hb hn hp hv]
    exact ⟨trivial, hd _ _⟩
  | some v =>
    simp only [Option.isNone_some, Bool.and_false, Bool.false_eq_true, if_false]
    exact ⟨trivial, hd _ _⟩

theorem vi_step {x : Act} (hd : NoDelete a) (I : VI a ext0 s) (hc : CarefulStep a ext0 s x) (h : step a s x = some s') : VI a ext0 s' := by
  have P := pi_step I.toPI h
  cases x with
  | handle =>
    simp only [step, Option.some.injEq] at h
    subst h
    have hbn : s.base ≤ s.n := Nat.le_trans I.bc I.cn
    obtain ⟨_, oc, fo, st, sm, mg, ex, rs⟩ := I
    refine ⟨P, oc, ?_, ?_, ?_, ?_, ex, ?_⟩
    · intro e h1 h2 h3
      simp only [] at h1 h2 h3 ⊢
      by_cases he : e = s.n
      · rw [he, put_same] at h3; omega
      · rw [put_other _ _ he] at h3; exact fo e h1 (by omega) h3
    · intro k m h1 h2 h3 h4
      simp only [] at h1 h2 h3 h4 ⊢
      have low : ∀ e, s.base ≤ e → e < m → e ≠ s.n → a.key e = k → 3 ≤ s.ph e := by
        intro e g1 g2 g3 g4
        have := h3 e g1 g2 g4
        rw [put_other _ _ g3] at this
        exact this
      by_cases hm : m = s.n + 1
      · subst hm
        have hk : a.key s.n ≠ k := by
          intro hk
          have := h3 s.n hbn (by omega) hk
          rw [put_same] at this
          omega
        rw [seqVal, if_neg hk]
        exact st k s.n hbn (by omega) (fun e g1 g2 g3 => low e g1 (by omega) (by omega) g3) (fun e g1 g2 => by omega)
      · refine st k m h1 (by omega) (fun e g1 g2 g3 => low e g1 g2 (by omega) g3) fun e g1 g2 g3 => ?_
        have := h4 e g1 (by omega) g3
        rw [put_other _ _ (by omega)] at this
        exact this
    · intro e h1 h2 h3
      simp only [] at h1 h2 h3 ⊢
      by_cases he : e = s.n
      · rw [he, put_same] at h3; omega
      · rw [put_other _ _ he] at h3; exact sm e h1 (by omega) h3
    · intro e h1 h2 h3
      simp only [] at h1 h2 h3 ⊢
      by_cases he : e = s.n
      · rw [he, put_same] at h3; rw [he]; exact h3
      · rw [put_other _ _ he] at h3; exact mg e h1 (by omega) h3
    · intro e h1 h2 h3
      simp only [] at h1 h2 h3 ⊢
      by_cases he : e = s.n
      · rw [he, put_same] at h3; omega
      · rw [put_other _ _ he] at h3; exact rs e h1 (by omega) h3
  | read e =>
    simp only [step] at h
    split at h
    · rename_i hg
      obtain ⟨g1, g2, g3, _⟩ := hg
      simp only [Option.some.injEq] at h
      subst h
      obtain ⟨_, oc, fo, st, sm, mg, ex, rs⟩ := I
      have p3 : ∀ x, 3 ≤ put s.ph e 2 x ↔ 3 ≤ s.ph x := by
        intro x
        by_cases hx : x = e
        · rw [hx, put_same]; omega
        · rw [put_other _ _ hx]
      refine ⟨P, oc, fun x h1 h2 h3 => fo x h1 h2 ((p3 x).mp h3), ?_, fun x h1 h2 h3 => sm x h1 h2 ((p3 x).mp h3), mg, ex, ?_⟩
      · intro k m h1 h2 h3 h4
        refine st k m h1 h2 (fun x q1 q2 q3 => (p3 x).mp (h3 x q1 q2 q3)) fun x q1 q2 q3 => ?_
        have := h4 x q1 q2 q3
        have := p3 x
        simp only [] at *
        omega
      · intro x h1 h2 h3 h4
        simp only [] at h1 h2 h3 h4 ⊢
        by_cases hx : x = e
        · rw [hx] at h4 ⊢
          have hm : s.mig e = false := by
            by_contra hm
            have := mg e g1 g2 (by simpa using hm)
            rw [h4] at this
            cases this
          rw [hm]
          simp only [Bool.false_eq_true, if_false, put_same]
          exact ex _ h4
        · rw [put_other _ _ hx] at h3
          have : (if s.mig e = true then s.res else put s.res e (s.ext (a.key e))) x = s.res x := by
            split
            · rfl
            · exact put_other _ _ hx
          rw [this]
          exact rs x h1 h2 h3 h4
    · cases h
  | fin e =>
    simp only [step] at h
    split at h
    · rename_i hg
      obtain ⟨g1, g2, g3, g4⟩ := hg
      simp only [Option.some.injEq] at h
      subst h
      obtain ⟨f1, f2⟩ := I.final hd g1 g2 g3 g4
      have mono := I.mono
      obtain ⟨_, oc, fo, st, sm, mg, ex, rs⟩ := I
      have some' : ∀ k, (s.store k).isSome = true → (put s.store (a.key e) (final a s e) k).isSome = true := by
        intro k hk
        by_cases hke : k = a.key e
        · rw [hke, put_same]; exact f2
        · rw [put_other _ _ hke]; exact hk
      have none' : ∀ k, put s.store (a.key e) (final a s e) k = none → s.store k = none := by
        intro k hk
        cases hv : s.store k with
        | none => rfl
        | some v =>
          have := some' k (by rw [hv]; rfl)
          rw [hk] at this
          cases this
      refine ⟨P, ?_, ?_, ?_, ?_, fun x h1 h2 h3 => some' _ (mg x h1 h2 h3), fun k hk => ex k (none' k hk), ?_⟩
      · intro x hx
        simp only [] at hx ⊢
        by_cases hxe : x = e
        · rw [hxe, put_same, f1]
        · rw [put_other _ _ hxe]; exact oc x hx
      · intro x h1 h2 h3
        simp only [] at h1 h2 h3 ⊢
        by_cases hxe : x = e
        · rw [hxe, put_same, f1]
        · rw [put_other _ _ hxe] at h3 ⊢; exact fo x h1 h2 h3
      · intro k m h1 h2 h3 h4
        simp only [] at h1 h2 h3 h4 ⊢
        by_cases hk : k = a.key e
        · subst hk
          rw [put_same, f1]
          have hem : e < m := by
            by_contra hc
            have := h4 e (by omega) g2 rfl
            rw [put_same] at this
            omega
          have := seqVal_skip (a := a) (ext0 := ext0) (k := a.key e) (m := e + 1) (m - (e + 1)) fun y q1 q2 q3 => by
            have r1 := h3 y (by omega) (by omega) q3
            rw [put_other _ _ (by omega)] at r1
            have := mono e y 3 g1 (by omega) (by omega) q3.symm (by omega) r1
            omega
          rw [← this]
          congr 1
          omega
        · rw [put_other _ _ hk]
          refine st k m h1 h2 (fun x q1 q2 q3 => ?_) fun x q1 q2 q3 => ?_
          · have := h3 x q1 q2 q3
            rw [put_other _ _ (by intro hx; exact hk (by rw [← q3, hx]))] at this
            exact this
          · have := h4 x q1 q2 q3
            rw [put_other _ _ (by intro hx; exact hk (by rw [← q3, hx]))] at this
            exact this
      · intro x h1 h2 h3
        simp only [] at h1 h2 h3 ⊢
        by_cases hxe : x = e
        · rw [hxe, put_same]; exact f2
        · rw [put_other _ _ hxe] at h3; exact some' _ (sm x h1 h2 h3)
      · intro x h1 h2 h3 h4
        simp only [] at h1 h2 h3 h4 ⊢
        by_cases hxe : x = e
        · rw [hxe, put_same] at h3; omega
        · rw [put_other _ _ hxe] at h3; exact rs x h1 h2 h3 (none' _ h4)
    · cases h
  | write e =>
    simp only [step] at h
    split at h
    · rename_i hg
      obtain ⟨_, g1, g2, g3, _⟩ := hg
      simp only [Option.some.injEq] at h
      subst h
      obtain ⟨_, oc, fo, st, sm, mg, ex, rs⟩ := I
      have p3 : ∀ x, 3 ≤ put s.ph e 4 x ↔ 3 ≤ s.ph x := by
        intro x
        by_cases hx : x = e
        · rw [hx, put_same]; omega
        · rw [put_other _ _ hx]
      refine ⟨P, oc, fun x h1 h2 h3 => fo x h1 h2 ((p3 x).mp h3), ?_, fun x h1 h2 h3 => sm x h1 h2 ((p3 x).mp h3), mg, ?_, ?_⟩
      · intro k m h1 h2 h3 h4
        refine st k m h1 h2 (fun x q1 q2 q3 => (p3 x).mp (h3 x q1 q2 q3)) fun x q1 q2 q3 => ?_
        have := h4 x q1 q2 q3
        have := p3 x
        simp only [] at *
        omega
      · intro k hk
        simp only [] at hk ⊢
        by_cases hke : k = a.key e
        · have := sm e g1 g2 (by omega)
          rw [← hke, hk] at this
          cases this
        · rw [put_other _ _ hke]; exact ex k hk
      · intro x h1 h2 h3 h4
        simp only [] at h1 h2 h3 h4 ⊢
        by_cases hx : x = e
        · rw [hx, put_same] at h3; omega
        · rw [put_other _ _ hx] at h3; exact rs x h1 h2 h3 h4
    · cases h
  | commit w =>
    simp only [step] at h
    split at h
    · rename_i hg
      obtain ⟨g1, g2, g3⟩ := hg
      simp only [Option.some.injEq] at h
      subst h
      have bc := I.bc
      obtain ⟨_, oc, fo, st, sm, mg, ex, rs⟩ := I
      refine ⟨P, ?_, fo, st, sm, mg, ex, rs⟩
      intro e he
      simp only [List.all_eq_true, List.mem_range, Bool.or_eq_true, decide_eq_true_eq] at g3
      rcases g3 e he with h1 | h1
      · exact oc e (by omega)
      · by_cases hb : e < s.base
        · exact oc e (by omega)
        · refine fo e (by omega) (by simp only [] at he; omega) ?_
          unfold App.last at h1
          split at h1 <;> omega
    · cases h
  | crash =>
    simp only [step, Option.some.injEq] at h
    subst h
    obtain ⟨_, oc, fo, st, sm, mg, ex, rs⟩ := I
    refine ⟨P, oc, ?_, ?_, ?_, ?_, hc, ?_⟩
    · intro e h1 h2; simp only [] at h1 h2; omega
    · intro k m h1 h2 _ _
      simp only [] at h1 h2 ⊢
      have : m = s.com := by omega
      rw [this]
      exact rebuilt_seq s.com oc
    · intro e h1 h2; simp only [] at h1 h2; omega
    · intro e h1 h2; simp only [] at h1 h2; omega
    · intro e h1 h2; simp only [] at h1 h2; omega

theorem pi_init : PI a (St.init ext0) := ⟨Nat.le_refl _, Nat.le_refl _, fun e _ h => by simp [St.init] at h, fun e e' m _ _ h => by simp [St.init] at h⟩

theorem vi_careful (hd : NoDelete a) (hs : Careful a ext0 s) : VI a ext0 s := by
  induction hs with
  | init =>
    refine ⟨pi_init, by simp [St.init], by simp [St.init], ?_, by simp [St.init], by simp [St.init], by simp [St.init], by simp [St.init]⟩
    intro k m _ h2 _ _
    simp only [St.init] at h2 ⊢
    have : m = 0 := by omega
    rw [this]
    rfl
  | step x _ hc h ih => exact vi_step hd ih hc h

/-- Without the second stage nothing is written. -/
theorem ext_same (hdual : a.dual = false) (hs : Reach a ext0 s) : s.ext = ext0 := by
  induction hs with
  | init => rfl
  | step x _ h ih =>
    cases x <;> simp only [step, hdual] at h
    case handle => simp only [Option.some.injEq] at h; subst h; exact ih
    case crash => simp only [Option.some.injEq] at h; subst h; exact ih
    case write => simp at h
    all_goals
      split at h
      · simp only [Option.some.injEq] at h; subst h; exact ih
      · cases h

theorem careful_of_single (hdual : a.dual = false) (hs : Reach a ext0 s) : Careful a ext0 s := by
  induction hs with
  | init => exact .init
  | step x hr h ih =>
    refine .step x ih ?_ h
    cases x <;> try trivial
    intro k _
    rw [ext_same hdual hr]

theorem careful_of_alive (hs : Alive a ext0 s) : Careful a ext0 s := by
  induction hs with
  | init => exact .init
  | step x hr hx h ih =>
    refine .step x ih ?_ h
    cases x <;> trivial

/-- What the database has, without crashes. -/
structure EI (a : App V D) (ext0 : Nat → D) (s : St V D) : Prop extends PI a s where
  b0 : s.base = 0
  et : ∀ k m, m ≤ s.n → (∀ e, e < m → a.key e = k → 4 ≤ s.ph e) → (∀ e, m ≤ e → e < s.n → a.key e = k → s.ph e < 4) → s.ext k = seqExt a ext0 k m

theorem ei_alive (hs : Alive a ext0 s) : EI a ext0 s := by
  induction hs with
  | init =>
    refine ⟨pi_init, rfl, ?_⟩
    intro k m h2 _ _
    simp only [St.init] at h2 ⊢
    have : m = 0 := by omega
    rw [this]
    rfl
  | @step s s' x _ hx h ih =>
    have P := pi_step ih.toPI h
    obtain ⟨P0, b0, et⟩ := ih
    -- a step that changes one phase, not across 4
    have quiet : ∀ (e q : Nat), q < 4 → s.ph e < 4 → s'.n = s.n → s'.base = s.base → s'.ph = put s.ph e q → s'.ext = s.ext → EI a ext0 s' := by
      intro e q hq he hn hb hp hx
      refine ⟨P, by rw [hb, b0], ?_⟩
      have p4 : ∀ x, 4 ≤ s'.ph x ↔ 4 ≤ s.ph x := by
        intro x
        rw [hp]
        by_cases hx : x = e
        · rw [hx, put_same]; omega
        · rw [put_other _ _ hx]
      intro k m h2 h3 h4
      rw [hx]
      rw [hn] at h2 h4
      refine et k m h2 (fun x q1 q2 => (p4 x).mp (h3 x q1 q2)) fun x q1 q2 q3 => ?_
      have := h4 x q1 q2 q3
      have := p4 x
      omega
    cases x with
    | handle =>
      simp only [step, Option.some.injEq] at h
      subst h
      refine ⟨P, b0, ?_⟩
      intro k m h2 h3 h4
      simp only [] at h2 h3 h4 ⊢
      have low : ∀ e, e < m → e ≠ s.n → a.key e = k → 4 ≤ s.ph e := by
        intro e g2 g3 g4
        have := h3 e g2 g4
        rw [put_other _ _ g3] at this
        exact this
      by_cases hm : m = s.n + 1
      · subst hm
        have hk : a.key s.n ≠ k := by
          intro hk
          have := h3 s.n (by omega) hk
          rw [put_same] at this
          omega
        rw [seqExt, if_neg hk]
        exact et k s.n (by omega) (fun e g2 g3 => low e (by omega) (by omega) g3) (fun e g1 g2 => by omega)
      · refine et k m (by omega) (fun e g2 g3 => low e g2 (by omega) g3) fun e g1 g2 g3 => ?_
        have := h4 e g1 (by omega) g3
        rw [put_other _ _ (by omega)] at this
        exact this
    | read e =>
      simp only [step] at h
      split at h
      · rename_i hg
        simp only [Option.some.injEq] at h
        exact quiet e 2 (by omega) (by omega) (by rw [← h]) (by rw [← h]) (by rw [← h]) (by rw [← h])
      · cases h
    | fin e =>
      simp only [step] at h
      split at h
      · rename_i hg
        simp only [Option.some.injEq] at h
        exact quiet e 3 (by omega) (by omega) (by rw [← h]) (by rw [← h]) (by rw [← h]) (by rw [← h])
      · cases h
    | write e =>
      simp only [step] at h
      split at h
      · rename_i hg
        obtain ⟨_, g1, g2, g3, g4⟩ := hg
        rw [ahead_iff] at g4
        simp only [Option.some.injEq] at h
        subst h
        refine ⟨P, b0, ?_⟩
        intro k m h2 h3 h4
        simp only [] at h2 h3 h4 ⊢
        by_cases hk : k = a.key e
        · subst hk
          have hem : e < m := by
            by_contra hc
            have := h4 e (by omega) g2 rfl
            rw [put_same] at this
            omega
          have hold : s.ext (a.key e) = seqExt a ext0 (a.key e) e := by
            refine et _ e (by omega) (fun x q2 q3 => g4 x (by omega) q2 q3) fun x q1 q2 q3 => ?_
            by_contra hc
            by_cases hxe : x = e
            · rw [hxe] at hc; omega
            · have := P0.mono e x 4 g1 (by omega) q2 q3.symm (by omega) (by omega)
              omega
          have hskip := seqExt_skip (a := a) (ext0 := ext0) (k := a.key e) (m := e + 1) (m - (e + 1)) fun y q1 q2 q3 => by
            have r1 := h3 y (by omega) q3
            rw [put_other _ _ (by omega)] at r1
            have := P0.mono e y 4 g1 (by omega) (by omega) q3.symm (by omega) r1
            omega
          rw [put_same, hold]
          have hm : e + 1 + (m - (e + 1)) = m := by omega
          rw [hm] at hskip
          rw [hskip, seqExt, if_pos rfl]
        · rw [put_other _ _ hk]
          refine et k m h2 (fun x q2 q3 => ?_) fun x q1 q2 q3 => ?_
          · have := h3 x q2 q3
            rw [put_other _ _ (by intro hx; exact hk (by rw [← q3, hx]))] at this
            exact this
          · have := h4 x q1 q2 q3
            rw [put_other _ _ (by intro hx; exact hk (by rw [← q3, hx]))] at this
            exact this
      · cases h
    | commit w =>
      simp only [step] at h
      split at h
      · simp only [Option.some.injEq] at h
        subst h
        exact ⟨P, b0, et⟩
      · cases h
    | crash => exact absurd rfl hx

end Verif.Migrate
