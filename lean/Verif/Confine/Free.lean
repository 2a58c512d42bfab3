import Verif.Confine.Proofs
import Verif.Confine.Calm
/-
Proofs for C115: in calm executions all that is done with a store, except `Revoked`, is in order.
-/
namespace Verif.Confine
open Verif.Eos (upd)

variable {tr : List Op}

/-- What a worker that may use its store knows once its waiter is closed. -/
def XK (tr : List Op) (x : WSt) (k i : Nat) : Prop :=
  match x with
  | .closed => Ms tr (.closed (.work k)) i
  | .got => Kn tr (.work k) i
  | _ => True

theorem XK.mono {l : List Op} {x : WSt} {k i : Nat} (h : XK tr x k i) : XK (tr ++ l) x k i := by
  cases x with
  | no => trivial
  | sent => trivial
  | closed => exact Ms.mono h
  | got => exact Kn.mono h

/-- May the worker use its store, now or later? -/
def May (s : St) (k : Nat) : Prop := s.revoked k = false ∨ s.has k = true

structure FI (s : St) : Prop where
  xk : ∀ i g st k, At s.tr i g st .change → k < s.works → s.wStore k = st → May s k → XK s.tr (s.wait (.work k)) k i
  late : ∀ i j g g' st w, At s.tr i g st (.handled w) → At s.tr j g' st .change → j < i
  free : ∀ i j g g' st x y, i < j → At s.tr i g st x → At s.tr j g' st y → x ≠ .revoked → y ≠ .revoked → Before s.tr i j

theorem fi_init : FI St.init := by
  have no : ∀ {i g st k}, ¬ At St.init.tr i g st k := by intro i g st k h; simp [At, St.init] at h
  exact ⟨fun _ _ _ _ h => absurd h no, fun _ _ _ _ _ _ h => absurd h no, fun _ _ _ _ _ _ _ _ h => absurd h no⟩

/-- Nothing is done with a store. -/
theorem FI.move {s s' : St} (F : FI s) (l : List Op) (hl : ∀ a ∈ l, a.quiet = true) (htr : s'.tr = s.tr ++ l)
    (h : ∀ i g k, At s.tr i g (s'.wStore k) .change → k < s'.works → May s' k → XK s'.tr (s'.wait (.work k)) k i) : FI s' := by
  have back : ∀ {i g st k}, At s'.tr i g st k → At s.tr i g st k := by
    intro i g st k h; rw [htr] at h; exact at_quiet hl h
  refine ⟨?_, ?_, ?_⟩
  · rintro i g st k h1 h2 rfl h3; exact h i g k (back h1) h2 h3
  · intro i j g g' st w h1 h2; exact F.late i j g g' st w (back h1) (back h2)
  · intro i j g g' st x y hij h1 h2 h3 h4; rw [htr]; exact before_mono (F.free i j g g' st x y hij (back h1) (back h2) h3 h4)

/-- Nothing is done with a store, and nobody learns anything. -/
theorem FI.still {s s' : St} (F : FI s) (l : List Op) (hl : ∀ a ∈ l, a.quiet = true) (htr : s'.tr = s.tr ++ l) (h1 : s'.works = s.works) (h2 : s'.wStore = s.wStore) (h3 : s'.wait = s.wait)
    (h4 : ∀ k, k < s.works → May s' k → May s k) : FI s' := by
  refine F.move l hl htr ?_
  intro i g k h hk hm
  rw [h2] at h
  rw [h1] at hk
  rw [h3, htr]
  exact (F.xk i g _ k h hk rfl (h4 k hk hm)).mono

/-- Something is done with a store, other than by `populate`. -/
theorem FI.acc {s : St} (F : FI s) {g : Gor} {st : Nat} {x : Kind} (hx : x ≠ .change) (hk : x ≠ .revoked → ∀ i g' y, At s.tr i g' st y → y ≠ .revoked → Kn s.tr g i) :
    FI { s with tr := s.tr ++ [.acc g st x] } := by
  refine ⟨?_, ?_, ?_⟩
  · intro i g' st' k h h1 h2 h3
    rcases at_acc h with h | ⟨-, -, -, h⟩
    · exact (F.xk i g' st' k h h1 h2 h3).mono
    · exact absurd h.symm hx
  · intro i j g1 g2 st' w h h'
    rcases at_acc h' with h1 | ⟨-, -, -, h1⟩
    · rcases at_acc h with h0 | ⟨rfl, -⟩
      · exact F.late i j g1 g2 st' w h0 h1
      · exact get_lt h1
    · exact absurd h1.symm hx
  · intro i j g1 g2 st' y z hij h h' hy hz
    rcases at_acc h' with h1 | ⟨rfl, rfl, rfl, rfl⟩
    · rcases at_acc h with h0 | ⟨rfl, -⟩
      · exact before_mono (F.free i j g1 g2 st' y z hij h0 h1 hy hz)
      · have := get_lt h1; omega
    · rcases at_acc h with h0 | ⟨rfl, -⟩
      · exact (hk hz i g1 y h0 hy).before rfl
      · omega

theorem FI.assignStore {s : St} (F : FI s) (I : MI s) (c p : Nat) : FI (assignStore s c p) := by
  have F1 : FI { s with tr := s.tr ++ [.lock (.caller c)] } := F.still [.lock (.caller c)] (by simp [Op.quiet]) rfl rfl rfl rfl (fun _ _ h => h)
  unfold Verif.Confine.assignStore
  cases hd : s.data p with
  | some st => exact F.still [.lock (.caller c), .unlock (.caller c)] (by simp [Op.quiet]) rfl rfl rfl rfl (fun _ _ h => h)
  | none =>
    have F2 := F1.acc (g := .caller c) (st := s.stores) (x := .made) (by simp) (by
      intro _ i g y h
      have := I.lt _ _ _ _ (at_quiet (l := [.lock (.caller c)]) (by simp [Op.quiet]) h)
      exact absurd this (Nat.lt_irrefl _))
    refine F2.still [.unlock (.caller c)] (by simp [Op.quiet]) (by simp) rfl rfl rfl (fun _ _ h => h)

theorem FI.startPop {s : St} (F : FI s) (c p st : Nat) (x : SSt) : FI (startPop s c p st x) :=
  F.still [.snd (.caller c) (.goPop s.pops)] (by simp [Op.quiet]) rfl rfl rfl rfl (fun _ _ h => h)

theorem FI.startWork {s : St} (F : FI s) (I : MI s) (c p st : Nat) : FI (startWork s c p st) := by
  refine F.move [.snd (.caller c) (.goWork s.works)] (by simp [Op.quiet]) rfl ?_
  intro i g k h hk hm
  change At s.tr i g (upd s.wStore s.works st k) .change at h
  show XK (s.tr ++ _) (s.wait (.work k)) k i
  by_cases he : k = s.works
  · subst he
    rw [I.noW _ (Nat.le_refl _)]; trivial
  · have hlt : k < s.works := by have : k < s.works + 1 := hk; omega
    unfold upd at h
    rw [if_neg he] at h
    refine (F.xk i g _ k h hlt rfl ?_).mono
    rcases hm with hm | hm
    · change upd s.revoked s.works false k = false at hm
      unfold upd at hm
      rw [if_neg he] at hm; exact .inl hm
    · change upd s.has s.works false k = true at hm
      unfold upd at hm
      rw [if_neg he] at hm; exact .inr hm

theorem fi_step {s s' : St} {x : Act} (F : FI s) (I : MI s) (C : CI s) (h : step s x = some s') : FI s' := by
  cases x with
  | prepare c p =>
    simp only [step] at h
    cases hp : s.prepping p with
    | some n => simp only [hp, Option.some.injEq] at h; subst h; exact F
    | none =>
      simp only [hp, Option.some.injEq] at h; subst h
      exact ((F.assignStore I c p).startPop c p (storeOf s p) .prepping).still [] (by simp) (List.append_nil _).symm rfl rfl rfl (fun _ _ h => h)
  | forget p =>
    simp only [step] at h
    cases hp : s.prepping p with
    | none => simp only [hp, Option.some.injEq] at h; subst h; exact F
    | some n => simp only [hp, Option.some.injEq] at h; subst h; exact F.still [] (by simp) (List.append_nil _).symm rfl rfl rfl (fun _ _ h => h)
  | assign c p =>
    simp only [step] at h
    have J := (I.assignStore c p).1
    cases hp : s.prepping p with
    | some n =>
      simp only [hp, Option.some.injEq] at h; subst h
      exact ((F.assignStore I c p).startWork J c p (storeOf s p)).still [] (by simp) (List.append_nil _).symm rfl rfl rfl (fun _ _ h => h)
    | none =>
      simp only [hp] at h
      cases hw : s.workers p with
      | some k => simp only [hw, Option.some.injEq] at h; subst h; exact F.assignStore I c p
      | none =>
        simp only [hw, Option.some.injEq] at h; subst h
        have F2 := (F.assignStore I c p).startPop c p (storeOf s p) .ready
        have J2 := J.startPop c p (storeOf s p) .ready (I.assignStore c p).2.1 (fun i g h => (I.assignStore c p).2.2 i g _ h)
        exact F2.startWork J2 c p _
  | revoke c p =>
    simp only [step] at h
    have mr : ∀ k l, k < s.works → (upd s.revoked l true k = false ∨ s.has k = true) → May s k := by
      intro k l _ hm
      rcases hm with hm | hm
      · unfold upd at hm
        split at hm
        · cases hm
        · exact .inl hm
      · exact .inr hm
    have F1 : FI { s with tr := s.tr ++ [.lock (.caller c)] } := F.still [.lock (.caller c)] (by simp [Op.quiet]) rfl rfl rfl rfl (fun _ _ h => h)
    cases hd : s.data p with
    | none =>
      cases hw : s.workers p <;> simp only [hw, hd, Option.some.injEq] at h <;> subst h
      · exact F.still [.lock (.caller c), .unlock (.caller c)] (by simp [Op.quiet]) rfl rfl rfl rfl (fun _ _ h => h)
      · exact F.still [.lock (.caller c), .unlock (.caller c)] (by simp [Op.quiet]) rfl rfl rfl rfl (fun k hk h => mr k _ hk h)
    | some st =>
      have F2 := F1.acc (g := .caller c) (st := st) (x := .revoked) (by simp) (fun h => absurd rfl h)
      cases hw : s.workers p <;> simp only [hw, hd, Option.some.injEq] at h <;> subst h
      · exact F2.still [.unlock (.caller c)] (by simp [Op.quiet]) (by simp) rfl rfl rfl (fun _ _ h => h)
      · exact F2.still [.unlock (.caller c)] (by simp [Op.quiet]) (by simp) rfl rfl rfl (fun k hk h => mr k _ hk h)
  | begin n =>
    simp only [step] at h
    split at h <;> cases h
    exact F.still [.rcv (.pop n) (.goPop n)] (by simp [Op.quiet]) rfl rfl rfl rfl (fun _ _ h => h)
  | apply n =>
    simp only [step] at h
    split at h <;> cases h
    rename_i hn
    have nd : s.pSt n ≠ .done := by rw [hn.2]; simp
    have know : ∀ i g y, At s.tr i g (s.pStore n) y → y ≠ .revoked → Kn s.tr (.pop n) i := by
      intro i g y h hy
      cases y with
      | made =>
        have := I.pk i g _ n h hn.1 rfl
        rw [hn.2] at this
        exact this
      | change =>
        obtain ⟨m, rfl, h1, h2⟩ := I.shape _ _ _ _ h
        have := C.pI n m hn.1 h1 h2
        subst this
        exact ⟨i, _, h, rfl, .inl rfl⟩
      | handled w =>
        obtain ⟨k, rfl, h1, h2, h3⟩ := I.shape _ _ _ _ h
        exact absurd (C.pd n k hn.1 h1 h2 (.inr h3) (.inr (C.hasw k h1 h3))) nd
      | revoked => exact absurd rfl hy
    refine ⟨?_, ?_, ?_⟩
    · intro i g st k h h1 h2 h3
      rcases at_acc h with h | ⟨-, -, rfl, -⟩
      · exact (F.xk i g st k h h1 h2 h3).mono
      · show XK _ (s.wait (.work k)) k i
        cases hw : s.wait (.work k) with
        | no => trivial
        | sent => trivial
        | closed => exact absurd (C.pd n k hn.1 h1 h2.symm h3 (.inl hw)) nd
        | got => exact absurd (C.pd n k hn.1 h1 h2.symm h3 (.inr hw)) nd
    · intro i j g1 g2 st' w h h'
      rcases at_acc h with h0 | ⟨-, -, -, h0⟩
      · rcases at_acc h' with h1 | ⟨-, -, rfl, -⟩
        · exact F.late i j g1 g2 st' w h0 h1
        · obtain ⟨k, -, a, b, c⟩ := I.shape _ _ _ _ h0
          exact absurd (C.pd n k hn.1 a b (.inr c) (.inr (C.hasw k a c))) nd
      · cases h0
    · intro i j g1 g2 st' y z hij h h' hy hz
      rcases at_acc h' with h1 | ⟨rfl, rfl, rfl, rfl⟩
      · rcases at_acc h with h0 | ⟨rfl, -⟩
        · exact before_mono (F.free i j g1 g2 st' y z hij h0 h1 hy hz)
        · have := get_lt h1; omega
      · rcases at_acc h with h0 | ⟨rfl, -⟩
        · exact (know i g1 y h0 hy).before rfl
        · omega
  | mark n w =>
    simp only [step] at h
    split at h
    · rename_i hw
      have hd' : ∀ k, w = .work k → k < s.works → May s k → ∀ m, m < s.pops → s.pStore m = s.wStore k → m = n := by
        intro k hk hlt hm m h1 h2
        subst hk
        have nd : s.pSt n ≠ .done := by rw [hw.2.1]; simp
        have hrev : s.revoked k = false := by
          rcases hm with h | h
          · exact h
          · have := C.hasw k hlt h; rw [hw.2.2.1] at this; cases this
        have h5 := C.s1 (s.wPart k) k n (C.w2 k hlt hrev) hw.1 hw.2.2.2.symm nd
        rcases h5.2 with h6 | h6
        · exact C.pI m n h1 hw.1 (h2.trans h6.symm)
        · exact absurd h2 (h6 m h1)
      have key : ∀ (ss : Nat → SSt) (f : Nat → PSt), FI { s with tr := s.tr ++ [.snd (.pop n) (.closed w)], ss := ss, pSt := f, wait := setW s.wait w .closed } := by
        intro ss f
        refine F.move [.snd (.pop n) (.closed w)] (by simp [Op.quiet]) rfl ?_
        intro i g k h hk hm
        show XK (s.tr ++ _) (setW s.wait w .closed (.work k)) k i
        by_cases he : Wt.work k = w
        · subst he
          rw [setW_self]
          obtain ⟨m, rfl, h1, h2⟩ := I.shape _ _ _ _ h
          have := hd' k rfl hk hm m h1 h2.symm
          subst this
          exact Kn.snd (g := .pop m) ⟨i, _, h, rfl, .inl rfl⟩ _
        · rw [setW_ne _ _ he]
          exact (F.xk i g _ k h hk rfl hm).mono
      split at h <;> cases h
      · exact key _ _
      · exact key _ _
      · exact key _ _
    · cases h
  | drain n =>
    simp only [step] at h
    split at h <;> cases h
    exact F.still [] (by simp) (List.append_nil _).symm rfl rfl rfl (fun _ _ h => h)
  | sync w =>
    simp only [step] at h
    split at h
    · rename_i hw
      have key : ∀ l : List Op, (∀ a ∈ l, a.quiet = true) → FI { s with tr := s.tr ++ l, wait := setW s.wait w .sent } := by
        intro l hl
        refine F.move l hl rfl ?_
        intro i g k h hk hm
        show XK (s.tr ++ _) (setW s.wait w .sent (.work k)) k i
        by_cases he : Wt.work k = w
        · subst he; rw [setW_self]; trivial
        · rw [setW_ne _ _ he]; exact (F.xk i g _ k h hk rfl hm).mono
      cases w with
      | prep m =>
        cases h
        have := key [] (by simp)
        simpa using this
      | work m => cases h; exact key _ (by simp [Op.quiet])
    · cases h
  | got w =>
    simp only [step] at h
    split at h <;> cases h
    rename_i hw
    refine F.move [.rcv w.gor (.closed w)] (by simp [Op.quiet]) rfl ?_
    intro i g k h hk hm
    show XK (s.tr ++ _) (setW s.wait w .got (.work k)) k i
    have := F.xk i g _ k h hk rfl hm
    by_cases he : Wt.work k = w
    · subst he
      rw [setW_self]
      rw [hw] at this
      exact Ms.rcv this _
    · rw [setW_ne _ _ he]; exact this.mono
  | sched k =>
    simp only [step] at h
    split at h <;> cases h
    rename_i hk
    refine F.still [] (by simp) (List.append_nil _).symm rfl rfl rfl ?_
    intro l hl hm
    rcases hm with hm | hm
    · exact .inl hm
    · change upd s.has k true l = true at hm
      unfold upd at hm
      split at hm
      · rename_i e; subst e; exact .inl hk.2.2
      · exact .inr hm
  | handle k w =>
    simp only [step] at h
    split at h <;> cases h
    rename_i hk
    have hg := C.hasw k hk.1 hk.2
    refine F.acc (by simp) ?_
    intro _ i g y h hy
    cases y with
    | made =>
      have := I.wk i g _ k h hk.1 rfl
      rw [hg] at this
      exact this
    | change =>
      have := F.xk i g _ k h hk.1 rfl (.inr hk.2)
      rw [hg] at this
      exact this
    | handled w' =>
      obtain ⟨l, rfl, h1, h2, -⟩ := I.shape _ _ _ _ h
      have := C.wI k l hk.1 h1 h2
      subst this
      exact ⟨i, _, h, rfl, .inl rfl⟩
    | revoked => exact absurd rfl hy

theorem Calm.reach {s : St} (h : Calm s) : Reach s := by
  induction h with
  | init => exact .init
  | step x _ _ hx ih => exact .step x ih hx

theorem fi_calm {s : St} (h : Calm s) : FI s := by
  induction h with
  | init => exact fi_init
  | step x hs hc hx ih => exact fi_step ih (mi_reach hs.reach) (ci_calm hs) hx

end Verif.Confine
