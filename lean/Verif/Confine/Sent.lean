import Verif.Confine.Proofs
/-
Proofs for C115: what is received has been sent, and nothing is sent twice.
-/
namespace Verif.Confine
open Verif.Eos (upd)

variable {tr : List Op}

/-- The message has been sent. -/
def SentIn (tr : List Op) (m : Msg) : Prop := ∃ (i : Nat) (g : Gor), tr[i]? = some (.snd g m)

theorem sentIn_append {a : Op} {m : Msg} : SentIn (tr ++ [a]) m ↔ SentIn tr m ∨ ∃ g, a = .snd g m := by
  constructor
  · rintro ⟨i, g, h⟩
    by_cases hi : i < tr.length
    · rw [List.getElem?_append_left hi] at h; exact .inl ⟨i, g, h⟩
    · rw [List.getElem?_append_right (by omega)] at h
      have := List.mem_of_getElem? h
      simp at this
      exact .inr ⟨g, this.symm⟩
  · rintro (⟨i, g, h⟩ | ⟨g, rfl⟩)
    · exact ⟨i, g, get_mono h⟩
    · exact ⟨_, g, get_last tr _⟩

theorem get_append {a b : Op} {i : Nat} (h : (tr ++ [a])[i]? = some b) : tr[i]? = some b ∨ (i = tr.length ∧ a = b) := by
  by_cases hi : i < tr.length
  · rw [List.getElem?_append_left hi] at h; exact .inl h
  · rw [List.getElem?_append_right (by omega)] at h
    by_cases h0 : i - tr.length = 0
    · rw [h0] at h
      simp only [List.getElem?_cons_zero, Option.some.injEq] at h
      exact .inr ⟨by omega, h⟩
    · rw [List.getElem?_eq_none (by simp; omega)] at h; cases h

theorem Orderly.append (h : Orderly tr) {a : Op} (h1 : ∀ g m, a = .rcv g m → SentIn tr m) (h2 : ∀ g m, a = .snd g m → ¬ SentIn tr m) : Orderly (tr ++ [a]) := by
  refine ⟨?_, ?_⟩
  · intro j g m hj
    rcases get_append hj with hj | ⟨rfl, e⟩
    · obtain ⟨i, g', hi, hg⟩ := h.1 j g m hj
      exact ⟨i, g', hi, get_mono hg⟩
    · obtain ⟨i, g', hi⟩ := h1 g m e
      exact ⟨i, g', get_lt hi, get_mono hi⟩
  · intro i j g g' m hi hj
    rcases get_append hi with hi | ⟨rfl, e⟩ <;> rcases get_append hj with hj | ⟨rfl, e'⟩
    · exact h.2 i j g g' m hi hj
    · exact absurd ⟨i, g, hi⟩ (h2 _ _ e')
    · exact absurd ⟨j, g', hj⟩ (h2 _ _ e)
    · rfl

/-- What has been sent, according to the state. -/
def Out (s : St) : Msg → Prop
  | .goPop n => n < s.pops
  | .goWork k => k < s.works
  | .closed w => s.wait w = .closed ∨ s.wait w = .got

/-- Neither sent nor received. -/
def Op.mute : Op → Prop
  | .snd _ _ => False
  | .rcv _ _ => False
  | _ => True

structure OI (s : St) : Prop where
  ord : Orderly s.tr
  out : ∀ m, SentIn s.tr m ↔ Out s m

theorem oi_init : OI St.init := by
  refine ⟨⟨?_, ?_⟩, ?_⟩
  · intro j g m h; simp [St.init] at h
  · intro i j g g' m h; simp [St.init] at h
  · intro m
    cases m <;> simp [SentIn, Out, St.init]

theorem OI.same {s s' : St} (O : OI s) (htr : s'.tr = s.tr) (h : ∀ m, Out s' m ↔ Out s m) : OI s' :=
  ⟨by rw [htr]; exact O.ord, fun m => by rw [htr, h m]; exact O.out m⟩

theorem OI.mute {s s' : St} (O : OI s) (a : Op) (ha : a.mute) (htr : s'.tr = s.tr ++ [a]) (h : ∀ m, Out s' m ↔ Out s m) : OI s' := by
  refine ⟨?_, ?_⟩
  · rw [htr]
    exact O.ord.append (by rintro g m rfl; exact ha.elim) (by rintro g m rfl; exact ha.elim)
  · intro m
    rw [htr, sentIn_append, h m, O.out m]
    constructor
    · rintro (h | ⟨g, rfl⟩)
      · exact h
      · exact ha.elim
    · exact .inl

theorem OI.rcv {s s' : St} (O : OI s) (g : Gor) (m0 : Msg) (hm : Out s m0) (htr : s'.tr = s.tr ++ [.rcv g m0]) (h : ∀ m, Out s' m ↔ Out s m) : OI s' := by
  refine ⟨?_, ?_⟩
  · rw [htr]
    refine O.ord.append ?_ (by rintro g m h; cases h)
    intro g m h
    cases h
    exact (O.out m0).2 hm
  · intro m
    rw [htr, sentIn_append, h m, O.out m]
    constructor
    · rintro (h | ⟨g, h⟩)
      · exact h
      · cases h
    · exact .inl

theorem OI.snd {s s' : St} (O : OI s) (g : Gor) (m0 : Msg) (hm : ¬ Out s m0) (htr : s'.tr = s.tr ++ [.snd g m0]) (h : ∀ m, Out s' m ↔ Out s m ∨ m = m0) : OI s' := by
  refine ⟨?_, ?_⟩
  · rw [htr]
    refine O.ord.append (by rintro g m h; cases h) ?_
    intro g m h
    cases h
    exact fun h => hm ((O.out m0).1 h)
  · intro m
    rw [htr, sentIn_append, h m, O.out m]
    constructor
    · rintro (h | ⟨g, h⟩)
      · exact .inl h
      · cases h; exact .inr rfl
    · rintro (h | rfl)
      · exact .inl h
      · exact .inr ⟨g, rfl⟩

theorem OI.assignStore {s : St} (O : OI s) (c p : Nat) : OI (assignStore s c p) := by
  have O1 : OI { s with tr := s.tr ++ [.lock (.caller c)] } := O.mute (.lock (.caller c)) trivial rfl (fun m => by cases m <;> exact Iff.rfl)
  unfold Verif.Confine.assignStore
  cases s.data p with
  | some st => exact O1.mute (.unlock (.caller c)) trivial (by simp) (fun m => by cases m <;> exact Iff.rfl)
  | none =>
    have O2 : OI { s with tr := (s.tr ++ [.lock (.caller c)]) ++ [.acc (.caller c) s.stores .made] } := O1.mute (.acc (.caller c) s.stores .made) trivial rfl (fun m => by cases m <;> exact Iff.rfl)
    exact O2.mute (.unlock (.caller c)) trivial (by simp) (fun m => by cases m <;> exact Iff.rfl)

theorem OI.startPop {s : St} (O : OI s) (c p st : Nat) (x : SSt) : OI (startPop s c p st x) := by
  refine O.snd (.caller c) (.goPop s.pops) (Nat.lt_irrefl _) rfl ?_
  intro m
  cases m with
  | goPop n =>
    show n < s.pops + 1 ↔ n < s.pops ∨ _
    simp only [Msg.goPop.injEq]; omega
  | goWork k => simp [Out, Verif.Confine.startPop]
  | closed w => simp [Out, Verif.Confine.startPop]

theorem OI.startWork {s : St} (O : OI s) (c p st : Nat) : OI (startWork s c p st) := by
  refine O.snd (.caller c) (.goWork s.works) (Nat.lt_irrefl _) rfl ?_
  intro m
  cases m with
  | goWork n =>
    show n < s.works + 1 ↔ n < s.works ∨ _
    simp only [Msg.goWork.injEq]; omega
  | goPop k => simp [Out, Verif.Confine.startWork]
  | closed w => simp [Out, Verif.Confine.startWork]

theorem oi_step {s s' : St} {x : Act} (O : OI s) (h : step s x = some s') : OI s' := by
  have refl : ∀ s' : St, s'.pops = s.pops → s'.works = s.works → s'.wait = s.wait → ∀ m, Out s' m ↔ Out s m := by
    intro s' h1 h2 h3 m
    cases m <;> simp only [Out, h1, h2, h3]
  cases x with
  | prepare c p =>
    simp only [step] at h
    cases hp : s.prepping p with
    | some n => simp only [hp, Option.some.injEq] at h; subst h; exact O
    | none =>
      simp only [hp, Option.some.injEq] at h; subst h
      exact ((O.assignStore c p).startPop c p (storeOf s p) .prepping).same rfl (fun m => by cases m <;> exact Iff.rfl)
  | forget p =>
    simp only [step] at h
    cases hp : s.prepping p <;> simp only [hp, Option.some.injEq] at h <;> subst h
    · exact O
    · exact O.same rfl (refl _ rfl rfl rfl)
  | assign c p =>
    simp only [step] at h
    cases hp : s.prepping p with
    | some n =>
      simp only [hp, Option.some.injEq] at h; subst h
      exact ((O.assignStore c p).startWork c p (storeOf s p)).same rfl (fun m => by cases m <;> exact Iff.rfl)
    | none =>
      simp only [hp] at h
      cases hw : s.workers p <;> simp only [hw, Option.some.injEq] at h <;> subst h
      · exact ((O.assignStore c p).startPop c p (storeOf s p) .ready).startWork c p (storeOf s p)
      · exact O.assignStore c p
  | revoke c p =>
    simp only [step] at h
    have O1 : OI { s with tr := s.tr ++ [.lock (.caller c)] } := O.mute (.lock (.caller c)) trivial rfl (fun m => by cases m <;> exact Iff.rfl)
    cases hd : s.data p with
    | none =>
      cases hw : s.workers p <;> simp only [hw, hd, Option.some.injEq] at h <;> subst h <;>
        exact O1.mute (.unlock (.caller c)) trivial (by simp) (fun m => by cases m <;> exact Iff.rfl)
    | some st =>
      have O2 : OI { s with tr := (s.tr ++ [.lock (.caller c)]) ++ [.acc (.caller c) st .revoked] } := O1.mute (.acc (.caller c) st .revoked) trivial rfl (fun m => by cases m <;> exact Iff.rfl)
      cases hw : s.workers p <;> simp only [hw, hd, Option.some.injEq] at h <;> subst h <;>
        exact O2.mute (.unlock (.caller c)) trivial (by simp) (fun m => by cases m <;> exact Iff.rfl)
  | begin n =>
    simp only [step] at h
    split at h <;> cases h
    rename_i hn
    exact O.rcv _ (.goPop n) hn.1 rfl (refl _ rfl rfl rfl)
  | apply n =>
    simp only [step] at h
    split at h <;> cases h
    exact O.mute (.acc _ _ _) trivial rfl (refl _ rfl rfl rfl)
  | mark n w =>
    simp only [step] at h
    split at h
    · rename_i hw
      have key : ∀ (ss : Nat → SSt) (f : Nat → PSt), OI { s with tr := s.tr ++ [.snd (.pop n) (.closed w)], ss := ss, pSt := f, wait := setW s.wait w .closed } := by
        intro ss f
        refine O.snd (.pop n) (.closed w) ?_ rfl ?_
        · show ¬ (s.wait w = .closed ∨ s.wait w = .got)
          rw [hw.2.2.1]; simp
        · intro m
          cases m with
          | goPop n => simp [Out]
          | goWork n => simp [Out]
          | closed v =>
            show (setW s.wait w .closed v = .closed ∨ setW s.wait w .closed v = .got) ↔ (s.wait v = .closed ∨ s.wait v = .got) ∨ _
            unfold setW
            by_cases e : v = w
            · simp [e]
            · simp [e]
      split at h <;> cases h
      · exact key _ _
      · exact key _ _
      · exact key _ _
    · cases h
  | drain n =>
    simp only [step] at h
    split at h <;> cases h
    exact O.same rfl (refl _ rfl rfl rfl)
  | sync w =>
    simp only [step] at h
    split at h
    · rename_i hw
      have hout : ∀ m, Out { s with wait := setW s.wait w .sent } m ↔ Out s m := by
        intro m
        cases m with
        | goPop n => exact Iff.rfl
        | goWork n => exact Iff.rfl
        | closed v =>
          show (setW s.wait w .sent v = .closed ∨ setW s.wait w .sent v = .got) ↔ (s.wait v = .closed ∨ s.wait v = .got)
          unfold setW
          by_cases e : v = w
          · simp [e, hw.2]
          · simp [e]
      cases w with
      | prep m => cases h; exact O.same rfl hout
      | work m =>
        cases h
        simp only [Wt.exists, decide_eq_true_eq] at hw
        exact O.rcv _ (.goWork m) hw.1 rfl (fun m => (by cases m <;> exact Iff.rfl : Out _ m ↔ Out { s with wait := setW s.wait _ .sent } m).trans (hout m))
    · cases h
  | got w =>
    simp only [step] at h
    split at h <;> cases h
    rename_i hw
    refine O.rcv _ (.closed w) (.inl hw) rfl ?_
    intro m
    cases m with
    | goPop n => exact Iff.rfl
    | goWork n => exact Iff.rfl
    | closed v =>
      show (setW s.wait w .got v = .closed ∨ setW s.wait w .got v = .got) ↔ (s.wait v = .closed ∨ s.wait v = .got)
      unfold setW
      by_cases e : v = w
      · simp [e, hw]
      · simp [e]
  | sched k =>
    simp only [step] at h
    split at h <;> cases h
    exact O.same rfl (refl _ rfl rfl rfl)
  | handle k w =>
    simp only [step] at h
    split at h <;> cases h
    exact O.mute (.acc _ _ _) trivial rfl (refl _ rfl rfl rfl)

theorem oi_reach {s : St} (h : Reach s) : OI s := by
  induction h with
  | init => exact oi_init
  | step x _ hx ih => exact oi_step ih hx

end Verif.Confine
