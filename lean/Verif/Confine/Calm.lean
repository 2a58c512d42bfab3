import Verif.Confine.Spec
import Mathlib.Tactic.Common
/-
Proofs for C115: who may fill and use which store in calm executions.
-/
namespace Verif.Confine
open Verif.Eos (upd)

/-- What holds in calm executions, apart from the trace. -/
structure CI (s : St) : Prop where
  pst : ∀ n, n < s.pops → s.pStore n < s.stores
  wst : ∀ k, k < s.works → s.wStore k < s.stores
  dat : ∀ p st, s.data p = some st → st < s.stores
  noP : ∀ n, s.pops ≤ n → s.wait (.prep n) = .no
  noW : ∀ k, s.works ≤ k → s.wait (.work k) = .no
  hasw : ∀ k, k < s.works → s.has k = true → s.wait (.work k) = .got
  j : ∀ p n, s.prepping p = some n → n < s.pops ∧ s.pPart n = p ∧ s.workers p = none ∧ (s.data p = some (s.pStore n) ∨ s.data p = none)
  jss : ∀ p n, s.prepping p = some n → s.pSt n ≠ .done → s.ss p ≠ .paused ∧ (s.wait (.prep n) = .closed ∨ s.wait (.prep n) = .got → s.ss p = .ready)
  j2 : ∀ p n m, s.prepping p = some n → m < s.pops → s.pPart m = p → s.pSt m ≠ .done → m = n
  w1 : ∀ p k, s.workers p = some k → k < s.works ∧ s.wPart k = p ∧ s.revoked k = false
  w2 : ∀ k, k < s.works → s.revoked k = false → s.workers (s.wPart k) = some k
  s1 : ∀ p k n, s.workers p = some k → n < s.pops → s.pPart n = p → s.pSt n ≠ .done → s.ss p = .ready ∧ (s.pStore n = s.wStore k ∨ ∀ m, m < s.pops → s.pStore m ≠ s.wStore k)
  s3 : ∀ n m, n < s.pops → m < s.pops → s.pPart n = s.pPart m → s.pSt n ≠ .done → s.pSt m ≠ .done → n = m
  pI : ∀ n m, n < s.pops → m < s.pops → s.pStore n = s.pStore m → n = m
  wI : ∀ k l, k < s.works → l < s.works → s.wStore k = s.wStore l → k = l
  k : ∀ p st k, s.data p = some st → k < s.works → s.wStore k = st → s.workers p = some k
  d : ∀ p q st, s.data p = some st → s.data q = some st → p = q
  pd : ∀ n k, n < s.pops → k < s.works → s.pStore n = s.wStore k → s.revoked k = false ∨ s.has k = true → s.wait (.work k) = .closed ∨ s.wait (.work k) = .got → s.pSt n = .done

theorem ci_init : CI St.init := by
  constructor <;> simp [St.init]

theorem ci_forget {s : St} (I : CI s) (p : Nat) : ∀ s', step s (.forget p) = some s' → CI s' := by
  intro s' h
  simp only [step] at h
  cases hp : s.prepping p with
  | none => simp only [hp, Option.some.injEq] at h; subst h; exact I
  | some n =>
    simp only [hp, Option.some.injEq] at h; subst h
    have hw := (I.j p n hp).2.2.1
    have up : ∀ q m, upd s.prepping p none q = some m → q ≠ p ∧ s.prepping q = some m := by
      intro q m hq
      unfold upd at hq
      by_cases hqp : q = p
      · rw [if_pos hqp] at hq; cases hq
      · rw [if_neg hqp] at hq; exact ⟨hqp, hq⟩
    have us : ∀ q, q ≠ p → upd s.ss p SSt.paused q = s.ss q := fun q hq => if_neg hq
    refine ⟨I.pst, I.wst, I.dat, I.noP, I.noW, I.hasw, ?_, ?_, ?_, I.w1, I.w2, ?_, I.s3, I.pI, I.wI, I.k, I.d, I.pd⟩
    · intro q m hq; exact I.j q m (up q m hq).2
    · intro q m hq
      have := I.jss q m (up q m hq).2
      simp only [us q (up q m hq).1]; exact this
    · intro q m m' hq; exact I.j2 q m m' (up q m hq).2
    · intro q k m hq
      have hqp : q ≠ p := by rintro rfl; simp only [hw] at hq; cases hq
      simp only [us q hqp]; exact I.s1 q k m hq

/-- Goroutines go on or end. -/
theorem CI.goOn {s : St} (I : CI s) (tr : List Op) (f : Nat → PSt) (h : ∀ m, f m ≠ .done → s.pSt m ≠ .done) : CI { s with tr := tr, pSt := f } := by
  refine ⟨I.pst, I.wst, I.dat, I.noP, I.noW, I.hasw, I.j, ?_, ?_, I.w1, I.w2, ?_, ?_, I.pI, I.wI, I.k, I.d, ?_⟩
  · intro q m hq hd; exact I.jss q m hq (h m hd)
  · intro q m m' hq h1 h2 hd; exact I.j2 q m m' hq h1 h2 (h m' hd)
  · intro q k m hq h1 h2 hd; exact I.s1 q k m hq h1 h2 (h m hd)
  · intro m m' h1 h2 h3 h4 h5; exact I.s3 m m' h1 h2 h3 (h m h4) (h m' h5)
  · intro m k h1 h2 h3 h4 h5
    have := I.pd m k h1 h2 h3 h4 h5
    by_contra hn
    exact h m hn this

theorem ci_pop {s : St} (I : CI s) (n : Nat) : ∀ s', step s (.begin n) = some s' ∨ step s (.apply n) = some s' ∨ step s (.drain n) = some s' → CI s' := by
  intro s' h
  rcases h with h | h | h <;> simp only [step] at h <;> split at h <;> rename_i hn <;> cases h
  · refine I.goOn _ _ ?_
    intro m hm
    unfold upd at hm
    split at hm
    · rename_i he; rw [he, hn.2]; simp
    · exact hm
  · exact I.goOn _ _ (fun _ h => h)
  · refine I.goOn _ _ ?_
    intro m hm
    unfold upd at hm
    split at hm
    · exact absurd rfl hm
    · exact hm

theorem ci_sync {s : St} (I : CI s) (w : Wt) : ∀ s', step s (.sync w) = some s' ∨ step s (.got w) = some s' → CI s' := by
  intro s' h
  obtain ⟨h1, h2, h3, h4, h5, h6, h7, h8, h9, h10, h11, h12, h13, h14, h15, h16, h17, h18⟩ := I
  rcases h with h | h <;> simp only [step] at h <;> split at h
  · rename_i hw
    cases w <;> simp only [Wt.exists, decide_eq_true_eq] at hw <;> cases h
    all_goals constructor <;> simp only [setW] <;> try assumption
    all_goals grind
  · cases h
  · cases h
    constructor <;> simp only [setW] <;> try assumption
    all_goals grind
  · cases h

theorem ci_sched {s : St} (I : CI s) (k : Nat) : ∀ s', step s (.sched k) = some s' → CI s' := by
  intro s' h
  obtain ⟨h1, h2, h3, h4, h5, h6, h7, h8, h9, h10, h11, h12, h13, h14, h15, h16, h17, h18⟩ := I
  simp only [step] at h; split at h <;> cases h
  constructor <;> simp only [upd] <;> try assumption
  all_goals grind

theorem ci_handle {s : St} (I : CI s) (k : Nat) (w : Bool) : ∀ s', step s (.handle k w) = some s' → CI s' := by
  intro s' h
  obtain ⟨h1, h2, h3, h4, h5, h6, h7, h8, h9, h10, h11, h12, h13, h14, h15, h16, h17, h18⟩ := I
  simp only [step] at h; split at h <;> cases h
  constructor <;> assumption

theorem setW_self (f : Wt → WSt) (w : Wt) (x : WSt) : setW f w x w = x := if_pos rfl

theorem setW_ne (f : Wt → WSt) {w v : Wt} (x : WSt) (h : v ≠ w) : setW f w x v = f v := if_neg h

/-- A marker is read. -/
theorem CI.marked {s : St} (I : CI s) {n : Nat} {w : Wt} (tr : List Op) (ss : Nat → SSt) (f : Nat → PSt) (hn : n < s.pops) (hr : s.pSt n = .run) (hw : s.wait w = .sent) (hp : w.part s = s.pPart n)
    (h1 : ∀ m, f m ≠ .done → s.pSt m ≠ .done) (h2 : ∀ q, q ≠ s.pPart n → ss q = s.ss q) (h3 : s.ss (s.pPart n) = .prepping → ss (s.pPart n) = .ready)
    (h4 : s.ss (s.pPart n) = .ready → f n = .done) : CI { s with tr := tr, ss := ss, pSt := f, wait := setW s.wait w .closed } := by
  have hl : s.pSt n ≠ .done := by rw [hr]; simp
  refine ⟨I.pst, I.wst, I.dat, ?_, ?_, ?_, I.j, ?_, ?_, I.w1, I.w2, ?_, ?_, I.pI, I.wI, I.k, I.d, ?_⟩
  · intro m hm
    show setW s.wait w .closed (.prep m) = .no
    have hne : Wt.prep m ≠ w := by rintro rfl; rw [I.noP m hm] at hw; cases hw
    rw [setW_ne _ _ hne]; exact I.noP m hm
  · intro m hm
    show setW s.wait w .closed (.work m) = .no
    have hne : Wt.work m ≠ w := by rintro rfl; rw [I.noW m hm] at hw; cases hw
    rw [setW_ne _ _ hne]; exact I.noW m hm
  · intro m hm hh
    show setW s.wait w .closed (.work m) = .got
    have hne : Wt.work m ≠ w := by rintro rfl; rw [I.hasw m hm hh] at hw; cases hw
    rw [setW_ne _ _ hne]; exact I.hasw m hm hh
  · intro q m hq hd
    show ss q ≠ .paused ∧ (setW s.wait w .closed (.prep m) = .closed ∨ setW s.wait w .closed (.prep m) = .got → ss q = .ready)
    have hm := h1 m hd
    obtain ⟨a1, a2⟩ := I.jss q m hq hm
    obtain ⟨b1, b2, -⟩ := I.j q m hq
    by_cases hqp : q = s.pPart n
    · have hmn := I.j2 q m n hq hn hqp.symm hl
      subst hmn
      subst hqp
      cases hs : s.ss (s.pPart n) with
      | paused => exact absurd hs a1
      | prepping => rw [h3 hs]; simp
      | ready => exact absurd (h4 hs) hd
    · have hne : Wt.prep m ≠ w := by rintro rfl; exact hqp (b2.symm.trans hp)
      rw [setW_ne _ _ hne, h2 q hqp]; exact ⟨a1, a2⟩
  · intro q m m' hq b1 b2 hd; exact I.j2 q m m' hq b1 b2 (h1 m' hd)
  · intro q k m hq b1 b2 hd
    show ss q = .ready ∧ _
    have := I.s1 q k m hq b1 b2 (h1 m hd)
    by_cases hqp : q = s.pPart n
    · subst hqp
      have hmn := I.s3 m n b1 hn b2 (h1 m hd) hl
      subst hmn
      exact absurd (h4 this.1) hd
    · rw [h2 q hqp]; exact this
  · intro m m' b1 b2 b3 b4 b5; exact I.s3 m m' b1 b2 b3 (h1 m b4) (h1 m' b5)
  · intro m k b1 b2 b3 b4 b5
    change setW s.wait w .closed (.work k) = .closed ∨ setW s.wait w .closed (.work k) = .got at b5
    show f m = .done
    by_cases hk : Wt.work k = w
    · subst hk
      have hrev : s.revoked k = false := by
        rcases b4 with h | h
        · exact h
        · rw [I.hasw k b2 h] at hw; cases hw
      have h5 := I.w2 k b2 hrev
      have h6 := I.s1 (s.wPart k) k n h5 hn hp.symm hl
      rcases h6.2 with h7 | h7
      · have hmn := I.pI m n b1 hn (b3.trans h7.symm)
        subst hmn
        refine h4 ?_
        rw [← hp]; exact h6.1
      · exact absurd b3 (h7 m b1)
    · rw [setW_ne _ _ hk] at b5
      by_contra hc
      exact h1 m hc (I.pd m k b1 b2 b3 b4 b5)

theorem ci_mark {s : St} (I : CI s) (n : Nat) (w : Wt) : ∀ s', step s (.mark n w) = some s' → CI s' := by
  intro s' h
  simp only [step] at h; split at h
  · rename_i hw
    obtain ⟨w1, w2, w3, w4⟩ := hw
    have un : ∀ (x : SSt) q, q ≠ s.pPart n → upd s.ss (s.pPart n) x q = s.ss q := fun x q hq => if_neg hq
    have us : ∀ x : SSt, upd s.ss (s.pPart n) x (s.pPart n) = x := fun x => if_pos rfl
    split at h <;> rename_i hs <;> cases h
    · exact I.marked _ _ _ w1 w2 w3 w4 (fun _ h => h) (un _) (fun _ => us _) (fun h => by rw [hs] at h; cases h)
    · refine I.marked _ _ _ w1 w2 w3 w4 ?_ (un _) (fun h => by rw [hs] at h; cases h) (fun _ => if_pos rfl)
      intro m hm
      unfold upd at hm
      split at hm
      · exact absurd rfl hm
      · exact hm
    · exact I.marked _ _ _ w1 w2 w3 w4 (fun _ h => h) (fun _ _ => rfl) (fun h => by rw [hs] at h; cases h) (fun h => by rw [hs] at h; cases h)
  · cases h

/-- The store of a partition is dropped. -/
theorem CI.drop {s : St} (I : CI s) (tr : List Op) (p : Nat) : CI { s with tr := tr, data := upd s.data p none } := by
  have ud : ∀ q st, upd s.data p none q = some st → s.data q = some st := by
    intro q st h
    unfold upd at h
    split at h
    · cases h
    · exact h
  refine ⟨I.pst, I.wst, ?_, I.noP, I.noW, I.hasw, ?_, I.jss, I.j2, I.w1, I.w2, I.s1, I.s3, I.pI, I.wI, ?_, ?_, I.pd⟩
  · intro q st h; exact I.dat q st (ud q st h)
  · intro q m hq
    obtain ⟨a, b, c, d⟩ := I.j q m hq
    refine ⟨a, b, c, ?_⟩
    show upd s.data p none q = _ ∨ upd s.data p none q = _
    unfold upd
    split
    · exact .inr rfl
    · exact d
  · intro q st l h; exact I.k q st l (ud q st h)
  · intro q q' st h h'; exact I.d q q' st (ud q st h) (ud q' st h')

/-- A partition without store loses its worker. -/
theorem CI.leave {s : St} (I : CI s) {p k : Nat} (hk : s.workers p = some k) (hd : s.data p = none) :
    CI { s with revoked := upd s.revoked k true, workers := upd s.workers p none } := by
  obtain ⟨k1, k2, k3⟩ := I.w1 p k hk
  have uw : ∀ q l, upd s.workers p none q = some l → q ≠ p ∧ s.workers q = some l := by
    intro q l h
    unfold upd at h
    by_cases hq : q = p
    · rw [if_pos hq] at h; cases h
    · rw [if_neg hq] at h; exact ⟨hq, h⟩
  have ur : ∀ l, upd s.revoked k true l = false → l ≠ k ∧ s.revoked l = false := by
    intro l h
    unfold upd at h
    by_cases hq : l = k
    · rw [if_pos hq] at h; cases h
    · rw [if_neg hq] at h; exact ⟨hq, h⟩
  refine ⟨I.pst, I.wst, I.dat, I.noP, I.noW, I.hasw, ?_, I.jss, I.j2, ?_, ?_, ?_, I.s3, I.pI, I.wI, ?_, I.d, ?_⟩
  · intro q m hq
    obtain ⟨a, b, c, d⟩ := I.j q m hq
    refine ⟨a, b, ?_, d⟩
    show upd s.workers p none q = none
    unfold upd
    split
    · rfl
    · exact c
  · intro q l h
    obtain ⟨hq, h⟩ := uw q l h
    obtain ⟨a, b, c⟩ := I.w1 q l h
    refine ⟨a, b, ?_⟩
    show upd s.revoked k true l = false
    unfold upd
    rw [if_neg (fun e => hq (by rw [← b, e, k2]))]; exact c
  · intro l hl h
    obtain ⟨hq, h⟩ := ur l h
    have := I.w2 l hl h
    show upd s.workers p none (s.wPart l) = some l
    unfold upd
    rw [if_neg]
    · exact this
    · intro e
      rw [e, hk] at this
      exact hq (Option.some.inj this).symm
  · intro q l m h; exact I.s1 q l m (uw q l h).2
  · intro q st l h h1 h2
    have := I.k q st l h h1 h2
    show upd s.workers p none q = some l
    unfold upd
    rw [if_neg]
    · exact this
    · rintro rfl
      simp only [hd] at h; cases h
  · intro m l h1 h2 h3 h4 h5
    exact I.pd m l h1 h2 h3 (h4.imp (fun h => (ur l h).2) id) h5

theorem ci_revoke {s : St} (I : CI s) (c p : Nat) : ∀ s', step s (.revoke c p) = some s' → CI s' := by
  intro s' h
  simp only [step] at h
  cases hw : s.workers p with
  | none => cases hd : s.data p <;> simp only [hw, hd, Option.some.injEq] at h <;> subst h
            · exact I.goOn _ s.pSt (fun _ h => h)
            · exact I.drop _ p
  | some k => cases hd : s.data p <;> simp only [hw, hd, Option.some.injEq] at h <;> subst h
              · exact CI.leave (I.goOn _ s.pSt (fun _ h => h)) hw hd
              · exact CI.leave (I.drop _ p) hw (if_pos rfl)

/-- A preparation is over. -/
theorem CI.unprep {s : St} (I : CI s) (p : Nat) : CI { s with prepping := upd s.prepping p none } := by
  have up : ∀ q m, upd s.prepping p none q = some m → s.prepping q = some m := by
    intro q m h
    unfold upd at h
    split at h
    · cases h
    · exact h
  exact ⟨I.pst, I.wst, I.dat, I.noP, I.noW, I.hasw, fun q m h => I.j q m (up q m h), fun q m h => I.jss q m (up q m h), fun q m m' h => I.j2 q m m' (up q m h), I.w1, I.w2, I.s1, I.s3, I.pI, I.wI,
    I.k, I.d, I.pd⟩

/-- The caller takes the lock and looks for a store, which is there. -/
theorem CI.quiet {s : St} (I : CI s) (tr : List Op) : CI { s with tr := tr } := I.goOn _ s.pSt (fun _ h => h)

/-- A store is made. -/
theorem CI.newStore {s : St} (I : CI s) (tr : List Op) {p : Nat} (hd : s.data p = none) (hp : s.prepping p = none) :
    CI { s with tr := tr, data := upd s.data p (some s.stores), stores := s.stores + 1 } := by
  have ud : ∀ q st, upd s.data p (some s.stores) q = some st → (q = p ∧ st = s.stores) ∨ (q ≠ p ∧ s.data q = some st) := by
    intro q st h
    unfold upd at h
    by_cases hq : q = p
    · rw [if_pos hq] at h; exact .inl ⟨hq, (Option.some.inj h).symm⟩
    · rw [if_neg hq] at h; exact .inr ⟨hq, h⟩
  refine ⟨fun n h => Nat.lt_succ_of_lt (I.pst n h), fun n h => Nat.lt_succ_of_lt (I.wst n h), ?_, I.noP, I.noW, I.hasw, ?_, I.jss, I.j2, I.w1, I.w2, I.s1, I.s3, I.pI, I.wI, ?_, ?_, I.pd⟩
  · intro q st h
    rcases ud q st h with ⟨-, h⟩ | ⟨-, h⟩
    · exact h ▸ Nat.lt_succ_self _
    · exact Nat.lt_succ_of_lt (I.dat q st h)
  · intro q m h
    obtain ⟨a, b, c, d⟩ := I.j q m h
    refine ⟨a, b, c, ?_⟩
    show upd s.data p (some s.stores) q = _ ∨ upd s.data p (some s.stores) q = _
    unfold upd
    rw [if_neg]
    · exact d
    · rintro rfl; simp only [hp] at h; cases h
  · intro q st l h h1 h2
    rcases ud q st h with ⟨-, h⟩ | ⟨-, h⟩
    · have := I.wst l h1
      have h2' : s.wStore l = st := h2
      omega
    · exact I.k q st l h h1 h2
  · intro q q' st h h'
    rcases ud q st h with ⟨h1, h2⟩ | ⟨-, h2⟩ <;> rcases ud q' st h' with ⟨h3, h4⟩ | ⟨-, h4⟩
    · rw [h1, h3]
    · have := I.dat _ _ h4; omega
    · have := I.dat _ _ h2; omega
    · exact I.d q q' st h2 h4

/-- A goroutine `populate` is started. -/
theorem CI.startPop {s : St} (I : CI s) (c : Nat) {p st : Nat} (x : SSt) (hw : s.workers p = none) (hp : s.prepping p = none) (hi : Idle s p) (hs : st < s.stores) (h1 : ∀ m, m < s.pops → s.pStore m ≠ st)
    (h2 : ∀ k, k < s.works → s.wStore k ≠ st) : CI (startPop s c p st x) := by
  unfold Idle at hi
  unfold Verif.Confine.startPop
  refine ⟨?_, I.wst, I.dat, ?_, I.noW, I.hasw, ?_, ?_, ?_, I.w1, I.w2, ?_, ?_, ?_, I.wI, I.k, I.d, ?_⟩ <;> simp only [upd]
  · have := I.pst; clear I; grind
  · have := I.noP; clear I; grind
  · have := I.j; clear I; grind
  · have := I.jss; have := I.j; clear I; grind
  · have := I.j2; have := I.j; clear I; grind
  · have := I.s1
    have hw1 := I.w1
    clear I
    intro q k n hq hn hpn hl
    have hqp : q ≠ p := by rintro rfl; rw [hw] at hq; cases hq
    by_cases hnn : n = s.pops
    · rw [if_pos hnn] at hpn; exact absurd hpn.symm hqp
    · rw [if_neg hnn] at hpn hl
      have h := this q k n hq (by omega) hpn hl
      rw [if_neg hqp, if_neg hnn]
      refine ⟨h.1, h.2.imp id fun h m hm => ?_⟩
      split
      · exact fun e => h2 k (hw1 q k hq).1 e.symm
      · exact h m (by omega)
  · have := I.s3; clear I; grind
  · have := I.pI; clear I; grind
  · have := I.pd; clear I; grind

/-- A worker is started. -/
theorem CI.startWork {s : St} (I : CI s) (c : Nat) {p st : Nat} (hw : s.workers p = none) (hp : s.prepping p = none) (hs : st < s.stores) (hd : s.data p = some st)
    (h2 : ∀ k, k < s.works → s.wStore k ≠ st) (h3 : ∀ n, n < s.pops → s.pPart n = p → s.pSt n ≠ .done → s.ss p = .ready ∧ (s.pStore n = st ∨ ∀ m, m < s.pops → s.pStore m ≠ st)) :
    CI (startWork s c p st) := by
  unfold Verif.Confine.startWork
  refine ⟨I.pst, ?_, I.dat, I.noP, ?_, ?_, ?_, I.jss, I.j2, ?_, ?_, ?_, I.s3, I.pI, ?_, ?_, I.d, ?_⟩ <;> simp only [upd]
  · have := I.wst; clear I; grind
  · have := I.noW; clear I; grind
  · have := I.hasw; clear I; grind
  · have := I.j; clear I; grind
  · have := I.w1; clear I; grind
  · have := I.w2; clear I; grind
  · have := I.s1
    have hw1 := I.w1
    clear I
    intro q k n hq hn hpn hl
    by_cases hqp : q = p
    · rw [if_pos hqp] at hq
      cases hq
      rw [if_pos rfl, hqp]
      exact h3 n hn (hpn.trans hqp) hl
    · rw [if_neg hqp] at hq
      rw [if_neg (by have := (hw1 q k hq).1; omega)]
      exact this q k n hq hn hpn hl
  · have := I.wI; clear I; grind
  · have := I.k; have := I.d; clear I; grind
  · have := I.pd; have := I.noW; clear I; grind

/-- A preparation begins. -/
theorem CI.prep {s : St} (I : CI s) {p n : Nat} (hn : n < s.pops) (hp : s.pPart n = p) (hw : s.workers p = none) (hd : s.data p = some (s.pStore n)) (hs : s.ss p = .prepping) (hwt : s.wait (.prep n) = .no)
    (hl : ∀ m, m < s.pops → s.pPart m = p → s.pSt m ≠ .done → m = n) : CI { s with prepping := upd s.prepping p (some n) } := by
  have up : ∀ q m, upd s.prepping p (some n) q = some m → (q = p ∧ m = n) ∨ s.prepping q = some m := by
    intro q m h
    unfold upd at h
    split at h
    · rename_i e; exact .inl ⟨e, (Option.some.inj h).symm⟩
    · exact .inr h
  refine ⟨I.pst, I.wst, I.dat, I.noP, I.noW, I.hasw, ?_, ?_, ?_, I.w1, I.w2, I.s1, I.s3, I.pI, I.wI, I.k, I.d, I.pd⟩
  · intro q m h
    rcases up q m h with ⟨rfl, rfl⟩ | h
    · exact ⟨hn, hp, hw, .inl hd⟩
    · exact I.j q m h
  · intro q m h
    rcases up q m h with ⟨rfl, rfl⟩ | h
    · intro _
      refine ⟨by simp only [hs]; simp, ?_⟩
      simp only [hwt]; rintro (h | h) <;> cases h
    · exact I.jss q m h
  · intro q m m' h
    rcases up q m h with ⟨rfl, rfl⟩ | h
    · exact hl m'
    · exact I.j2 q m m' h

theorem ci_prepare {s : St} (I : CI s) (c p : Nat) (hc : CalmStep s (.prepare c p)) : ∀ s', step s (.prepare c p) = some s' → CI s' := by
  intro s' h
  simp only [step] at h
  cases hp : s.prepping p with
  | some n => simp only [hp, Option.some.injEq] at h; subst h; exact I
  | none =>
    obtain ⟨c1, c2, c3⟩ := hc hp
    simp only [hp, Option.some.injEq] at h; subst h
    simp only [assignStore, storeOf, c2, Option.getD_none]
    have I1 := CI.newStore I (s.tr ++ [.lock (.caller c), .acc (.caller c) s.stores .made, .unlock (.caller c)]) c2 hp
    have I2 := CI.startPop I1 c (st := s.stores) .prepping c1 hp c3 (Nat.lt_succ_self _) (fun m hm => Nat.ne_of_lt (I.pst m hm)) (fun k hk => Nat.ne_of_lt (I.wst k hk))
    refine I2.prep (n := s.pops) (Nat.lt_succ_self _) (if_pos rfl) c1 ?_ (if_pos rfl) (I.noP _ (Nat.le_refl _)) ?_
    · simp only [startPop, upd, if_true]
    · intro m hm h1 h2
      by_contra hne
      simp only [startPop, upd, if_neg hne] at hm h1 h2
      exact h2 (c3 m (by omega) h1)

theorem ci_assign {s : St} (I : CI s) (c p : Nat) (hc : CalmStep s (.assign c p)) : ∀ s', step s (.assign c p) = some s' → CI s' := by
  intro s' h
  simp only [step] at h
  simp only [CalmStep] at hc
  cases hp : s.prepping p with
  | some n =>
    simp only [hp, Option.some.injEq] at h hc; subst h
    obtain ⟨hw, hg⟩ := hc
    obtain ⟨a1, a2, a3, a4⟩ := I.j p n hp
    have I0 := I.unprep p
    have hr : ∀ m, m < s.pops → s.pPart m = p → s.pSt m ≠ .done → m = n ∧ s.ss p = .ready := by
      intro m h1 h2 h3
      have := I.j2 p n m hp h1 h2 h3
      subst this
      exact ⟨rfl, (I.jss p m hp h3).2 (.inr hg)⟩
    cases hd : s.data p with
    | none =>
      simp only [startWork, assignStore, storeOf, hd, Option.getD_none]
      have I1 := CI.newStore I0 (s.tr ++ [.lock (.caller c), .acc (.caller c) s.stores .made, .unlock (.caller c)]) hd (if_pos rfl)
      exact CI.startWork I1 c (st := s.stores) hw (if_pos rfl) (Nat.lt_succ_self _) (if_pos rfl) (fun k hk => Nat.ne_of_lt (I.wst k hk))
        (fun m h1 h2 h3 => ⟨(hr m h1 h2 h3).2, .inr fun m hm => Nat.ne_of_lt (I.pst m hm)⟩)
    | some st =>
      have hst : s.pStore n = st := by
        rcases a4 with h | h
        · rw [hd] at h; exact (Option.some.inj h).symm
        · rw [hd] at h; cases h
      simp only [startWork, assignStore, storeOf, hd, Option.getD_some]
      have I1 := I0.quiet (s.tr ++ [.lock (.caller c), .unlock (.caller c)])
      refine CI.startWork I1 c (st := st) hw (if_pos rfl) (I.dat p st hd) hd ?_ ?_
      · intro k hk he
        have := I.k p st k hd hk he
        rw [hw] at this; cases this
      · intro m h1 h2 h3
        exact ⟨(hr m h1 h2 h3).2, .inl (by rw [(hr m h1 h2 h3).1]; exact hst)⟩
  | none =>
    simp only [hp] at h hc
    cases hw : s.workers p with
    | some k =>
      simp only [hw, Option.some.injEq] at h; subst h
      cases hd : s.data p <;> simp only [assignStore, hd]
      · exact I.newStore _ hd hp
      · exact I.quiet _
    | none =>
      obtain ⟨c2, c3⟩ := hc hw
      simp only [hw, Option.some.injEq] at h; subst h
      simp only [assignStore, storeOf, c2, Option.getD_none]
      have I1 := CI.newStore I (s.tr ++ [.lock (.caller c), .acc (.caller c) s.stores .made, .unlock (.caller c)]) c2 hp
      have I2 := CI.startPop I1 c (st := s.stores) .ready hw hp c3 (Nat.lt_succ_self _) (fun m hm => Nat.ne_of_lt (I.pst m hm)) (fun k hk => Nat.ne_of_lt (I.wst k hk))
      refine I2.startWork c hw hp (Nat.lt_succ_self _) ?_ (fun k hk => Nat.ne_of_lt (I.wst k hk)) ?_
      · simp only [startPop, upd, if_true]
      · intro m hm h1 h2
        by_cases hne : m = s.pops
        · simp only [startPop, upd, hne, if_true]; simp
        · simp only [startPop, upd, if_neg hne] at hm h1 h2
          exact absurd (c3 m (by omega) h1) h2

theorem ci_step {s s' : St} {x : Act} (I : CI s) (hc : CalmStep s x) (h : step s x = some s') : CI s' := by
  cases x with
  | prepare c p => exact ci_prepare I c p hc s' h
  | forget p => exact ci_forget I p s' h
  | assign c p => exact ci_assign I c p hc s' h
  | revoke c p => exact ci_revoke I c p s' h
  | begin n => exact ci_pop I n s' (.inl h)
  | apply n => exact ci_pop I n s' (.inr (.inl h))
  | drain n => exact ci_pop I n s' (.inr (.inr h))
  | mark n w => exact ci_mark I n w s' h
  | sync w => exact ci_sync I w s' (.inl h)
  | got w => exact ci_sync I w s' (.inr h)
  | sched k => exact ci_sched I k s' h
  | handle k w => exact ci_handle I k w s' h

theorem ci_calm {s : St} (h : Calm s) : CI s := by
  induction h with
  | init => exact ci_init
  | step x _ hc hx ih => exact ci_step ih hc hx

end Verif.Confine
