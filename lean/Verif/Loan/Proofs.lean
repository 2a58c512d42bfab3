import Verif.Loan.Flow
/-
Who holds what, and that everything is handed over in order.
-/
namespace Verif.Loan
open Verif.Eos (upd)

theorem upd_same {α : Type} (f : Nat → α) (i : Nat) (x : α) : upd f i x i = x := by simp [upd]

theorem upd_ne {α : Type} (f : Nat → α) {i j : Nat} (x : α) (h : j ≠ i) : upd f i x j = f j := by simp [upd, h]

/-- Where everything is. -/
structure SI (s : St) : Prop where
  l1 : ∀ r b, s.rst r = .list b → r ∈ s.left b
  l2 : ∀ r k b, s.rst r = .cli k (some b) → r ∈ s.left b
  nd : ∀ b, (s.left b).Nodup
  bo : ∀ b, s.bst b ≠ .opn → s.left b = []
  un : ∀ r, s.recs ≤ r → s.rst r = .pool
  bn : ∀ b, s.batches ≤ b → s.left b = [] ∧ s.bst b = .opn

theorem si_init : SI St.init := by
  constructor <;> simp [St.init]

theorem SI.lt {s : St} (I : SI s) {r : Nat} (h : s.rst r ≠ .pool) : r < s.recs := by
  by_contra hn
  exact h (I.un r (by omega))

/-- One object changes its place. -/
theorem SI.one {s s' : St} (I : SI s) {r : Nat} {X : RSt} (hr : r < s.recs) (hl : ∀ b, X = .list b → r ∈ s.left b) (hc : ∀ k b, X = .cli k (some b) → r ∈ s.left b) (h1 : s'.rst = upd s.rst r X) (h2 : s'.recs = s.recs) (h3 : s'.batches = s.batches) (h4 : s'.bst = s.bst)
    (h5 : s'.left = s.left) : SI s' := by
  obtain ⟨l1, l2, nd, bo, un, bn⟩ := I
  refine ⟨fun i b h => ?_, fun i k b h => ?_, by rw [h5]; exact nd, by rw [h4, h5]; exact bo, fun i hi => ?_, by rw [h3, h4, h5]; exact bn⟩
  · rw [h1] at h; rw [h5]
    by_cases hir : i = r
    · subst hir; rw [upd_same] at h; exact hl b h
    · rw [upd_ne _ _ hir] at h; exact l1 i b h
  · rw [h1] at h; rw [h5]
    by_cases hir : i = r
    · subst hir; rw [upd_same] at h; exact hc k b h
    · rw [upd_ne _ _ hir] at h; exact l2 i k b h
  · rw [h2] at hi; rw [h1, upd_ne _ _ (by omega)]; exact un i hi

theorem si_step {s s' : St} {x : Act} (I : SI s) (h : step s x = some s') : SI s' := by
  cases x with
  | make g =>
    simp only [step, Option.some.injEq] at h
    subst h
    obtain ⟨l1, l2, nd, bo, un, bn⟩ := I
    refine ⟨fun i b h => ?_, fun i k b h => ?_, nd, bo, fun i hi => ?_, bn⟩
    · by_cases hir : i = s.recs
      · subst hir; simp only [upd_same] at h; cases h
      · simp only [upd_ne _ _ hir] at h; exact l1 i b h
    · by_cases hir : i = s.recs
      · subst hir; simp only [upd_same] at h; cases h
      · simp only [upd_ne _ _ hir] at h; exact l2 i k b h
    · simp only [] at hi ⊢; rw [upd_ne _ _ (by omega)]; exact un i (by omega)
  | borrow g r =>
    simp only [step] at h
    split at h
    · rename_i hc
      simp only [Option.some.injEq] at h
      subst h
      exact I.one (r := r) (X := .own g) hc.1 (by simp) (by simp) rfl rfl rfl rfl rfl
    · cases h
  | use r =>
    simp only [step] at h
    split at h
    · simp only [Option.some.injEq] at h
      subst h
      obtain ⟨l1, l2, nd, bo, un, bn⟩ := I
      exact ⟨l1, l2, nd, bo, un, bn⟩
    · cases h
  | release r =>
    simp only [step] at h
    split at h
    · rename_i g hg
      simp only [Option.some.injEq] at h
      subst h
      exact I.one (r := r) (X := .pool) (I.lt (by rw [hg]; simp)) (by simp) (by simp) rfl rfl rfl rfl rfl
    · cases h
  | give r =>
    simp only [step] at h
    split at h
    · rename_i g hg
      simp only [Option.some.injEq] at h
      subst h
      exact I.one (r := r) (X := .way s.sends) (I.lt (by rw [hg]; simp)) (by simp) (by simp) rfl rfl rfl rfl rfl
    · cases h
  | get r g =>
    simp only [step] at h
    split at h
    · rename_i k hg
      simp only [Option.some.injEq] at h
      subst h
      exact I.one (r := r) (X := .own g) (I.lt (by rw [hg]; simp)) (by simp) (by simp) rfl rfl rfl rfl rfl
    · cases h
  | txn r n owned =>
    simp only [step] at h
    split at h
    · rename_i g hg
      split at h
      · simp only [Option.some.injEq] at h
        subst h
        exact I.one (r := r) (X := .cli s.sends none) (I.lt (by rw [hg]; simp)) (by simp) (by simp) rfl rfl rfl rfl rfl
      · simp only [Option.some.injEq] at h
        subst h
        exact I.one (r := r) (X := .pend n) (I.lt (by rw [hg]; simp)) (by simp) (by simp) rfl rfl rfl rfl rfl
    · cases h
  | flush r g =>
    simp only [step] at h
    split at h
    · rename_i n hg
      simp only [Option.some.injEq] at h
      subst h
      exact I.one (r := r) (X := .cli s.sends none) (I.lt (by rw [hg]; simp)) (by simp) (by simp) rfl rfl rfl rfl rfl
    · cases h
  | solo r =>
    simp only [step] at h
    split at h
    · rename_i g hg
      simp only [Option.some.injEq] at h
      subst h
      exact I.one (r := r) (X := .cli s.sends none) (I.lt (by rw [hg]; simp)) (by simp) (by simp) rfl rfl rfl rfl rfl
    · cases h
  | done r c =>
    simp only [step] at h
    split at h
    · rename_i k hg
      simp only [Option.some.injEq] at h
      subst h
      exact I.one (r := r) (X := .own (.cli c)) (I.lt (by rw [hg]; simp)) (by simp) (by simp) rfl rfl rfl rfl rfl
    · cases h
  | batch g rs =>
    simp only [step] at h
    split at h
    · rename_i hc
      simp only [Option.some.injEq] at h
      subst h
      have hrs : ∀ r ∈ rs, s.rst r = .own g := by simpa using hc.2
      obtain ⟨l1, l2, nd, bo, un, bn⟩ := I
      have ne : ∀ b i, i ∈ s.left b → b ≠ s.batches := fun b i h1 h2 => by
        subst h2; rw [(bn _ (Nat.le_refl _)).1] at h1; cases h1
      refine ⟨fun i b h => ?_, fun i k b h => ?_, fun b => ?_, fun b h => ?_, fun i hi => ?_, fun b hb => ?_⟩
      · simp only [] at h ⊢
        split at h
        · rename_i hi; cases h; rw [upd_same]; exact hi
        · rw [upd_ne _ _ (ne b i (l1 i b h))]; exact l1 i b h
      · simp only [] at h ⊢
        split at h
        · cases h
        · rw [upd_ne _ _ (ne b i (l2 i k b h))]; exact l2 i k b h
      · by_cases hb : b = s.batches
        · subst hb; simp only [upd_same]; exact hc.1
        · simp only [upd_ne _ _ hb]; exact nd b
      · by_cases hb : b = s.batches
        · subst hb; simp only [upd_same] at h; exact absurd rfl h
        · simp only [upd_ne _ _ hb] at h ⊢; exact bo b h
      · simp only [] at hi ⊢
        rw [if_neg fun hm => ?_]
        · exact un i hi
        · have := un i hi; rw [hrs i hm] at this; cases this
      · simp only [] at hb ⊢
        rw [upd_ne _ _ (by omega), upd_ne _ _ (by omega)]
        exact bn b (by omega)
    · cases h
  | bprod r =>
    simp only [step] at h
    split at h
    · rename_i b hg
      simp only [Option.some.injEq] at h
      subst h
      exact I.one (r := r) (X := .cli s.sends (some b)) (I.lt (by rw [hg]; simp)) (by simp) (by simp; exact I.l1 r b hg) rfl rfl rfl rfl rfl
    · cases h
  | bdone r c =>
    simp only [step] at h
    split at h
    · rename_i k b hg
      have key : ∀ s' : St, s'.rst = upd s.rst r (.cnt b) → s'.left = upd s.left b ((s.left b).erase r) → s'.recs = s.recs → s'.batches = s.batches → (∀ b', s'.bst b' ≠ .opn → (b' ≠ b ∧ s.bst b' ≠ .opn) ∨ (b' = b ∧ (s.left b).erase r = [])) → (∀ b', b' ≠ b → s'.bst b' = s.bst b') → SI s' := by
        intro s' h1 h2 h3 h4 h5 h6
        have hlt := I.lt (r := r) (by rw [hg]; simp)
        have hm := I.l2 r k b hg
        obtain ⟨l1, l2, nd, bo, un, bn⟩ := I
        have go : ∀ i b', i ≠ r → i ∈ s.left b' → i ∈ upd s.left b ((s.left b).erase r) b' := by
          intro i b' hi hm'
          by_cases hb : b' = b
          · subst hb; rw [upd_same]; exact (List.mem_erase_of_ne hi).mpr hm'
          · rw [upd_ne _ _ hb]; exact hm'
        refine ⟨fun i b' h => ?_, fun i k b' h => ?_, fun b' => ?_, fun b' h => ?_, fun i hi => ?_, fun b' hb => ?_⟩
        · rw [h1] at h; rw [h2]
          by_cases hir : i = r
          · subst hir; rw [upd_same] at h; cases h
          · rw [upd_ne _ _ hir] at h; exact go i b' hir (l1 i b' h)
        · rw [h1] at h; rw [h2]
          by_cases hir : i = r
          · subst hir; rw [upd_same] at h; cases h
          · rw [upd_ne _ _ hir] at h; exact go i b' hir (l2 i k b' h)
        · rw [h2]
          by_cases hb : b' = b
          · subst hb; rw [upd_same]; exact (nd b').erase _
          · rw [upd_ne _ _ hb]; exact nd b'
        · rw [h2]
          rcases h5 b' h with ⟨h7, h8⟩ | ⟨rfl, h8⟩
          · rw [upd_ne _ _ h7]; exact bo b' h8
          · rw [upd_same]; exact h8
        · rw [h3] at hi; rw [h1, upd_ne _ _ (by omega)]; exact un i hi
        · rw [h4] at hb
          have hne : b' ≠ b := fun h => by subst h; rw [(bn b' hb).1] at hm; cases hm
          rw [h2, upd_ne _ _ hne, h6 b' hne]
          exact bn b' hb
      have hopn : s.bst b = .opn := by
        by_contra hn
        have := I.l2 r k b hg
        rw [I.bo b hn] at this; cases this
      split at h
      · rename_i he
        simp only [Option.some.injEq] at h
        subst h
        refine key _ rfl rfl rfl rfl (fun b' h => ?_) (fun b' hb => upd_ne _ _ hb)
        by_cases hb : b' = b
        · exact .inr ⟨hb, by simpa using he⟩
        · simp only [upd_ne _ _ hb] at h; exact .inl ⟨hb, h⟩
      · simp only [Option.some.injEq] at h
        subst h
        refine key _ rfl rfl rfl rfl (fun b' h => ?_) (fun b' hb => rfl)
        by_cases hb : b' = b
        · subst hb; exact absurd hopn h
        · exact .inl ⟨hb, h⟩
    · cases h
  | call b =>
    simp only [step] at h
    split at h
    · rename_i hc
      simp only [Option.some.injEq] at h
      subst h
      obtain ⟨l1, l2, nd, bo, un, bn⟩ := I
      refine ⟨l1, l2, nd, fun b' h => ?_, un, fun b' hb => ?_⟩
      · by_cases hb : b' = b
        · subst hb; exact bo b' (by rw [hc]; simp)
        · simp only [upd_ne _ _ hb] at h; exact bo b' h
      · have hne : b' ≠ b := fun h => by subst h; have := (bn b' hb).2; rw [hc] at this; cases this
        simp only [upd_ne _ _ hne]
        exact bn b' hb
    · cases h
  | back r =>
    simp only [step] at h
    split at h
    · rename_i b hg
      split at h
      · simp only [Option.some.injEq] at h
        subst h
        exact I.one (r := r) (X := .own (s.bown b)) (I.lt (by rw [hg]; simp)) (by simp) (by simp) rfl rfl rfl rfl rfl
      · cases h
    · cases h

theorem si_reach {s : St} (hs : Reach s) : SI s := by
  induction hs with
  | init => exact si_init
  | step x _ h ih => exact si_step ih h

/-- Who holds an object. -/
def rHold (s : St) (r : Nat) : Holder :=
  match s.rst r with
  | .pool => .lck .pool
  | .own g => .gor g
  | .list b => .gor (s.bown b)
  | .pend n => .lck (.node n)
  | .cli k _ => .msg (.prod k)
  | .way k => .msg (.pass k)
  | .cnt b =>
    match s.bst b with
    | .opn => .atom b
    | .sent => .msg (.job b)
    | .called => .gor (s.bown b)

/-- Everything is in order and known to its holder. -/
structure MI (s : St) : Prop where
  lo : Fine s.tr (.lck .pool) .free
  ob : ∀ r, r < s.recs → Fine s.tr (rHold s r) (.obj r)
  fr : ∀ o ∈ s.tr, ∀ r, o.at (.obj r) = true → r < s.recs
  nb : ∀ r b, s.rst r = .list b ∨ s.rst r = .cnt b → b < s.batches

theorem mi_init : MI St.init := by
  constructor <;> simp [St.init, Fine]

theorem Ok.none {h' : Holder} {L : Loc} : ∀ (l : List Op) (S : List Holder), (∀ o ∈ l, o.at L = false) → Ok h' L S l
  | [], _, _ => trivial
  | o :: l, _, h => ⟨fun ha => (by have := h o (by simp); rw [ha] at this; cases this), Ok.none l _ fun o' ho => h o' (List.mem_cons_of_mem _ ho)⟩

theorem rHold_eq {s s' : St} {r : Nat} (h1 : s'.rst r = s.rst r) (h2 : s'.bown = s.bown) (h3 : s'.bst = s.bst) : rHold s' r = rHold s r := by
  simp only [rHold, h1, h2, h3]

theorem MI.extend {s s' : St} (M : MI s) (l : List Op) (g : Gor) (htr : s'.tr = s.tr ++ l) (hit : s'.recs = s.recs) (hg : ∀ o ∈ l, o.gor = g) (hL : Ok (.lck .pool) .free [.lck .pool] l)
    (hR : ∀ r, r < s.recs → rHold s' r ∈ after [rHold s r] l ∧ Ok (rHold s' r) (.obj r) [rHold s r] l) (hi : ∀ o ∈ l, ∀ r, o.at (.obj r) = true → r < s.recs)
    (hn : ∀ r b, s'.rst r = .list b ∨ s'.rst r = .cnt b → b < s'.batches) : MI s' := by
  obtain ⟨lo, ob, fr, nb⟩ := M
  refine ⟨?_, fun r hr => ?_, fun o ho r ha => ?_, hn⟩
  · rw [htr]; exact lo.extend hg hL (after_sub l _ (by simp))
  · rw [hit] at hr; rw [htr]; exact (ob r hr).extend hg (hR r hr).2 (hR r hr).1
  · rw [htr] at ho
    rw [hit]
    rcases List.mem_append.mp ho with ho | ho
    · exact fr o ho r ha
    · exact hi o ho r ha

/-- One object changes its place. -/
theorem MI.one {s s' : St} (M : MI s) {r : Nat} {X : RSt} (l : List Op) (g : Gor) (hr : r < s.recs) (htr : s'.tr = s.tr ++ l) (h1 : s'.rst = upd s.rst r X) (h2 : s'.recs = s.recs) (h3 : s'.batches = s.batches) (h4 : s'.bst = s.bst) (h5 : s'.bown = s.bown)
    (hg : ∀ o ∈ l, o.gor = g) (hL : Ok (.lck .pool) .free [.lck .pool] l) (hm : rHold s' r ∈ after [rHold s r] l) (hok : Ok (rHold s' r) (.obj r) [rHold s r] l) (ho : ∀ o ∈ l, ∀ i, i ≠ r → o.at (.obj i) = false)
    (hX : ∀ b, X = .list b ∨ X = .cnt b → b < s.batches) : MI s' := by
  refine M.extend l g htr h2 hg hL (fun i hi => ?_) (fun o hol i ha => ?_) (fun i b h => ?_)
  · by_cases hir : i = r
    · subst hir; exact ⟨hm, hok⟩
    · rw [rHold_eq (by rw [h1, upd_ne _ _ hir]) h5 h4]
      exact ⟨after_sub _ _ (by simp), Ok.none _ _ fun o hol => ho o hol i hir⟩
  · by_cases hir : i = r
    · rw [hir]; exact hr
    · rw [ho o hol i hir] at ha; cases ha
  · rw [h1] at h; rw [h3]
    by_cases hir : i = r
    · subst hir; rw [upd_same] at h; exact hX b h
    · rw [upd_ne _ _ hir] at h; exact M.nb i b h

theorem mi_step {s s' : St} {x : Act} (M : MI s) (I : SI s) (h : step s x = some s') : MI s' := by
  cases x with
  | make g =>
    simp only [step, Option.some.injEq] at h
    subst h
    obtain ⟨lo, ob, fr, nb⟩ := M
    refine ⟨lo.extend (g := g) (by simp [Op.gor]) (by simp [Ok, Op.at, takes, gives, after, Op.gor]) (after_sub _ _ (by simp)), fun r hr => ?_, fun o ho r ha => ?_, fun r b h => ?_⟩
    · simp only [] at hr
      by_cases hrr : r = s.recs
      · subst hrr
        refine Fine.fresh (g := g) (fun o ho => ?_) (by simp [Op.gor]) fun _ _ _ _ _ => after_sub _ _ ?_
        · cases h : o.at (.obj s.recs) with
          | false => rfl
          | true => exact absurd (fr o ho _ h) (by omega)
        · simp [rHold, upd_same]
      · have : rHold { s with tr := s.tr ++ [.lock g .pool, .acc g .free true, .unlock g .pool, .acc g (.obj s.recs) true], recs := s.recs + 1, rst := upd s.rst s.recs (.own g) } r = rHold s r := by
          simp only [rHold, upd_ne _ _ hrr]
        rw [this]
        exact (ob r (by omega)).skip (by simp [Op.at]; omega) (after_sub _ _ (by simp))
    · simp only []
      rcases List.mem_append.mp ho with ho | ho
      · have := fr o ho r ha; omega
      · simp at ho
        rcases ho with rfl | rfl | rfl | rfl <;> simp [Op.at] at ha
        omega
    · simp only [] at h ⊢
      by_cases hrr : r = s.recs
      · subst hrr; simp [upd_same] at h
      · rw [upd_ne _ _ hrr] at h; exact nb r b h
  | borrow g r =>
    simp only [step] at h
    split at h
    · rename_i hc
      simp only [Option.some.injEq] at h
      subst h
      exact M.one (r := r) (X := .own g) _ g hc.1 rfl rfl rfl rfl rfl rfl (by simp [Op.gor]) (by simp [Ok, Op.at, takes, gives, after, Op.gor]) (by simp [rHold, hc.2, upd_same, after, takes, gives, Op.gor]) (Ok.none _ _ (by simp [Op.at])) (by simp [Op.at]) (by simp)
    · cases h
  | use r =>
    simp only [step] at h
    split at h
    · rename_i g hg
      simp only [Option.some.injEq] at h
      subst h
      refine M.one (r := r) (X := .own g) _ g (I.lt (by rw [hg]; simp)) rfl ?_ rfl rfl rfl rfl (by simp [Op.gor]) (Ok.none _ _ (by simp [Op.at])) (by simp [rHold, hg, after, takes, gives, Op.gor]) (by simp [rHold, hg, Ok, Op.at, takes, gives, after, Op.gor]) (by simp [Op.at]; omega) (by simp)
      funext i
      by_cases hi : i = r
      · subst hi; rw [upd_same]; exact hg
      · rw [upd_ne _ _ hi]
    · cases h
  | release r =>
    simp only [step] at h
    split at h
    · rename_i g hg
      simp only [Option.some.injEq] at h
      subst h
      exact M.one (r := r) (X := .pool) _ g (I.lt (by rw [hg]; simp)) rfl rfl rfl rfl rfl rfl (by simp [Op.gor]) (by simp [Ok, Op.at, takes, gives, after, Op.gor]) (by simp [rHold, hg, upd_same, after, takes, gives, Op.gor])
        (by simp [rHold, hg, upd_same, Ok, Op.at, takes, gives, after, Op.gor]) (by simp [Op.at]; omega) (by simp)
    · cases h
  | give r =>
    simp only [step] at h
    split at h
    · rename_i g hg
      simp only [Option.some.injEq] at h
      subst h
      exact M.one (r := r) (X := .way s.sends) _ g (I.lt (by rw [hg]; simp)) rfl rfl rfl rfl rfl rfl (by simp [Op.gor]) (Ok.none _ _ (by simp [Op.at])) (by simp [rHold, hg, upd_same, after, takes, gives, Op.gor])
        (Ok.none _ _ (by simp [Op.at])) (by simp [Op.at]) (by simp)
    · cases h
  | get r g =>
    simp only [step] at h
    split at h
    · rename_i k hg
      simp only [Option.some.injEq] at h
      subst h
      exact M.one (r := r) (X := .own g) _ g (I.lt (by rw [hg]; simp)) rfl rfl rfl rfl rfl rfl (by simp [Op.gor]) (Ok.none _ _ (by simp [Op.at])) (by simp [rHold, hg, upd_same, after, takes, gives, Op.gor])
        (Ok.none _ _ (by simp [Op.at])) (by simp [Op.at]) (by simp)
    · cases h
  | txn r n owned =>
    simp only [step] at h
    split at h
    · rename_i g hg
      split at h
      · simp only [Option.some.injEq] at h
        subst h
        exact M.one (r := r) (X := .cli s.sends none) _ g (I.lt (by rw [hg]; simp)) rfl rfl rfl rfl rfl rfl (by simp [Op.gor]) (Ok.none _ _ (by simp [Op.at])) (by simp [rHold, hg, upd_same, after, takes, gives, Op.gor])
          (by simp [rHold, hg, upd_same, Ok, Op.at, takes, gives, after, Op.gor]) (by simp [Op.at]; omega) (by simp)
      · simp only [Option.some.injEq] at h
        subst h
        exact M.one (r := r) (X := .pend n) _ g (I.lt (by rw [hg]; simp)) rfl rfl rfl rfl rfl rfl (by simp [Op.gor]) (Ok.none _ _ (by simp [Op.at])) (by simp [rHold, hg, upd_same, after, takes, gives, Op.gor])
          (by simp [rHold, hg, upd_same, Ok, Op.at, takes, gives, after, Op.gor]) (by simp [Op.at]; omega) (by simp)
    · cases h
  | flush r g =>
    simp only [step] at h
    split at h
    · rename_i n hg
      simp only [Option.some.injEq] at h
      subst h
      exact M.one (r := r) (X := .cli s.sends none) _ g (I.lt (by rw [hg]; simp)) rfl rfl rfl rfl rfl rfl (by simp [Op.gor]) (Ok.none _ _ (by simp [Op.at])) (by simp [rHold, hg, upd_same, after, takes, gives, Op.gor])
        (by simp [rHold, hg, upd_same, Ok, Op.at, takes, gives, after, Op.gor]) (by simp [Op.at]; omega) (by simp)
    · cases h
  | solo r =>
    simp only [step] at h
    split at h
    · rename_i g hg
      simp only [Option.some.injEq] at h
      subst h
      exact M.one (r := r) (X := .cli s.sends none) _ g (I.lt (by rw [hg]; simp)) rfl rfl rfl rfl rfl rfl (by simp [Op.gor]) (Ok.none _ _ (by simp [Op.at])) (by simp [rHold, hg, upd_same, after, takes, gives, Op.gor])
        (by simp [rHold, hg, upd_same, Ok, Op.at, takes, gives, after, Op.gor]) (by simp [Op.at]; omega) (by simp)
    · cases h
  | done r c =>
    simp only [step] at h
    split at h
    · rename_i k hg
      simp only [Option.some.injEq] at h
      subst h
      exact M.one (r := r) (X := .own (.cli c)) _ (.cli c) (I.lt (by rw [hg]; simp)) rfl rfl rfl rfl rfl rfl (by simp [Op.gor]) (Ok.none _ _ (by simp [Op.at])) (by simp [rHold, hg, upd_same, after, takes, gives, Op.gor])
        (by simp [rHold, hg, upd_same, Ok, Op.at, takes, gives, after, Op.gor]) (by simp [Op.at]; omega) (by simp)
    · cases h
  | batch g rs =>
    simp only [step] at h
    split at h
    · rename_i hc
      simp only [Option.some.injEq] at h
      subst h
      have hrs : ∀ r ∈ rs, s.rst r = .own g := by simpa using hc.2
      have nb := M.nb
      refine M.extend [] g (by simp) rfl (by simp) trivial (fun r hr => ⟨?_, trivial⟩) (by simp) (fun r b h => ?_)
      · simp only [after, List.mem_singleton]
        by_cases hm : r ∈ rs
        · simp [rHold, hm, hrs r hm, upd_same]
        · simp only [rHold, if_neg hm]
          cases hr : s.rst r with
          | list b => simp only []; rw [upd_ne _ _ (by have := nb r b (.inl hr); omega)]
          | cnt b => simp only []; rw [upd_ne _ _ (by have := nb r b (.inr hr); omega), upd_ne _ _ (by have := nb r b (.inr hr); omega)]
          | _ => rfl
      · simp only [] at h ⊢
        split at h
        · simp at h; omega
        · have := nb r b h; omega
    · cases h
  | bprod r =>
    simp only [step] at h
    split at h
    · rename_i b hg
      simp only [Option.some.injEq] at h
      subst h
      exact M.one (r := r) (X := .cli s.sends (some b)) _ (s.bown b) (I.lt (by rw [hg]; simp)) rfl rfl rfl rfl rfl rfl (by simp [Op.gor]) (Ok.none _ _ (by simp [Op.at])) (by simp [rHold, hg, upd_same, after, takes, gives, Op.gor])
        (by simp [rHold, hg, upd_same, Ok, Op.at, takes, gives, after, Op.gor]) (by simp [Op.at]; omega) (by simp)
    · cases h
  | bdone r c =>
    simp only [step] at h
    split at h
    · rename_i k b hg
      have hlt := I.lt (r := r) (by rw [hg]; simp)
      have hin := I.l2 r k b hg
      have hopn : s.bst b = .opn := by
        by_contra hn
        rw [I.bo b hn] at hin; cases hin
      have hb : b < s.batches := by
        by_contra hn
        rw [(I.bn b (by omega)).1] at hin; cases hin
      have hr : rHold s r = .msg (.prod k) := by simp [rHold, hg]
      split at h
      · simp only [Option.some.injEq] at h
        subst h
        refine M.extend _ (.cli c) rfl rfl (by simp [Op.gor]) (Ok.none _ _ (by simp [Op.at])) (fun i hi => ?_) (fun o ho i ha => ?_) (fun i b' h => ?_)
        · by_cases hir : i = r
          · subst hir
            rw [hr]
            simp [rHold, upd_same, Ok, Op.at, takes, gives, after, Op.gor]
          · refine ⟨?_, Ok.none _ _ (by simp [Op.at]; omega)⟩
            by_cases hc : s.rst i = .cnt b
            · simp [rHold, upd_ne _ _ hir, hc, hopn, upd_same, takes, gives, after, Op.gor]
            · refine after_sub _ _ ?_
              simp only [rHold, upd_ne _ _ hir, List.mem_singleton]
              cases hri : s.rst i with
              | cnt b' => simp only []; rw [upd_ne _ _ fun h => hc (by rw [hri, h])]
              | _ => rfl
        · simp at ho
          rcases ho with rfl | rfl | rfl | rfl <;> simp [Op.at] at ha
          subst ha; exact hlt
        · simp only [] at h ⊢
          by_cases hir : i = r
          · subst hir; simp [upd_same] at h; omega
          · rw [upd_ne _ _ hir] at h; exact M.nb i b' h
      · simp only [Option.some.injEq] at h
        subst h
        exact M.one (r := r) (X := .cnt b) _ (.cli c) hlt rfl rfl rfl rfl rfl rfl (by simp [Op.gor]) (Ok.none _ _ (by simp [Op.at])) (by simp [rHold, hg, hopn, upd_same, after, takes, gives, Op.gor])
          (by simp [rHold, hg, hopn, upd_same, Ok, Op.at, takes, gives, after, Op.gor]) (by simp [Op.at]; omega) (by simp; omega)
    · cases h
  | call b =>
    simp only [step] at h
    split at h
    · rename_i hc
      simp only [Option.some.injEq] at h
      subst h
      refine M.extend _ (s.bown b) rfl rfl (by simp [Op.gor]) (Ok.none _ _ (by simp [Op.at])) (fun i hi => ⟨?_, Ok.none _ _ (by simp [Op.at])⟩) (by simp [Op.at]) M.nb
      by_cases hcn : s.rst i = .cnt b
      · simp [rHold, hcn, hc, upd_same, takes, gives, after, Op.gor]
      · refine after_sub _ _ ?_
        simp only [rHold, List.mem_singleton]
        cases hri : s.rst i with
        | cnt b' => simp only []; rw [upd_ne _ _ fun h => hcn (by rw [hri, h])]
        | _ => rfl
    · cases h
  | back r =>
    simp only [step] at h
    split at h
    · rename_i b hg
      split at h
      · rename_i hc
        simp only [Option.some.injEq] at h
        subst h
        exact M.one (r := r) (X := .own (s.bown b)) [] (s.bown b) (I.lt (by rw [hg]; simp)) (by simp) rfl rfl rfl rfl rfl (by simp) trivial (by simp [rHold, hg, hc, upd_same, after]) trivial (by simp) (by simp)
      · cases h
    · cases h

theorem mi_reach {s : St} (hs : Reach s) : MI s := by
  induction hs with
  | init => exact mi_init
  | step x h0 h ih => exact mi_step ih (si_reach h0) h

end Verif.Loan
