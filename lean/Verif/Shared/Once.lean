import Verif.Shared.Steps
/-
Proofs for C111: everything is sent at most once and by then is what the state says, so a receive is after the only send of what it receives; and without a time-out the commit loop does not look at the producer of a context.
-/
namespace Verif.Shared
open Verif.Eos (upd)

variable {pt : Nat → Nat} {s s' : St}

/-- The message has been sent, says the state. -/
def Spent (s : St) : Msg → Prop
  | .buffer e => e < s.born
  | .input e => e < s.born ∧ s.w e ≠ .pushed
  | .given e => e < s.born ∧ s.given e ≠ none
  | .done e => s.closed e = true
  | .node t => t < s.msgs
  | .back t => t < s.msgs
  | .pass t => t < s.msgs

/-- What a list of operations sends. -/
def sends (l : List Op) : List Msg := l.filterMap fun | .snd _ m => some m | _ => none

theorem sends_append (l l' : List Op) : sends (l ++ l') = sends l ++ sends l' := by simp [sends]

theorem sends_linkOps (e : Nat) (o : Option Nat) : sends (linkOps e o) = [] := by cases o <;> simp [sends, linkOps]

theorem sends_clearOps (es : List Nat) : sends (clearOps es) = [] := by
  induction es with
  | nil => rfl
  | cons e es ih =>
    have : clearOps (e :: es) = [.acc .com e .fixed false, .acc .com e .prev false] ++ clearOps es := rfl
    rw [this, sends_append, ih]; rfl

/-- What has been sent has been sent once, and the state knows. -/
structure Onces (s : St) : Prop where
  nodup : (sends s.tr).Nodup
  spent : ∀ m ∈ sends s.tr, Spent s m

theorem Onces.grow (I : Onces s) {l : List Op} (htr : s'.tr = s.tr ++ l) (hl : (sends l).Nodup) (hn : ∀ m ∈ sends l, ¬ Spent s m ∧ Spent s' m)
    (hk : ∀ m, Spent s m → Spent s' m) : Onces s' := by
  refine ⟨?_, ?_⟩
  · rw [htr, sends_append, List.nodup_append]
    exact ⟨I.nodup, hl, fun a ha b hb => by rintro rfl; exact (hn a hb).1 (I.spent a ha)⟩
  · intro m hm
    rw [htr, sends_append, List.mem_append] at hm
    rcases hm with hm | hm
    · exact hk m (I.spent m hm)
    · exact (hn m hm).2

theorem onces_step (I : Onces s) {x : Act} (h : step pt s x = some s') : Onces s' := by
  have hu : ∀ (α : Type) (f : Nat → α) (e : Nat) (a : α) (P : α → Prop) (e' : Nat), P a → P (f e') → P (upd f e a e') := by
    intro α f e a P e' h1 h2
    by_cases he : e' = e
    · subst he; rw [upd_self]; exact h1
    · rw [upd_other _ _ he]; exact h2
  cases x with
  | create k =>
    cases h
    refine I.grow rfl (by simp [sends]) ?_ ?_
    · intro m hm
      simp [sends] at hm
      subst hm
      simp [Spent]
    · intro m hm
      cases m <;> simp only [Spent] at hm ⊢
      · omega
      · rename_i e
        rw [upd_other _ _ (by omega)]
        exact ⟨by omega, hm.2⟩
      · exact ⟨by omega, hm.2⟩
      all_goals exact hm
  | push e =>
    simp only [step] at h
    split at h
    · rename_i hc
      cases h
      refine I.grow rfl (by simp [sends]) ?_ ?_
      · intro m hm
        simp [sends] at hm
        subst hm
        simp [Spent, hc.1, hc.2, upd_self]
      · intro m hm
        cases m <;> simp only [Spent] at hm ⊢
        case input e' => exact ⟨hm.1, hu _ s.w e .queued (· ≠ .pushed) e' (by simp) hm.2⟩
        all_goals exact hm
    · cases h
  | recv e =>
    simp only [step] at h
    split at h
    · cases h
      exact I.grow rfl (by simp [sends]) (by simp [sends]) (fun m hm => by cases m <;> exact hm)
    · cases h
  | refuse e =>
    simp only [step] at h
    split at h
    · rename_i hc
      cases h
      refine I.grow rfl (by simp [sends]) ?_ ?_
      · intro m hm
        simp [sends] at hm
        subst hm
        simp [Spent, hc.1, hc.2.2, upd_self]
      · intro m hm
        cases m <;> simp only [Spent] at hm ⊢
        case given e' => exact ⟨hm.1, hu _ s.given e (some false) (· ≠ none) e' (by simp) hm.2⟩
        all_goals exact hm
    · cases h
  | link e n =>
    simp only [step] at h
    split at h
    · cases h
      exact I.grow rfl (by simp [sends_linkOps]) (by simp [sends_linkOps]) (fun m hm => by cases m <;> exact hm)
    · cases h
  | give e =>
    simp only [step] at h
    split at h
    · split at h
      · rename_i hc
        cases h
        refine I.grow rfl (by simp [sends]) ?_ ?_
        · intro m hm
          simp [sends] at hm
          subst hm
          simp [Spent, hc.1, hc.2.2.2, upd_self]
        · intro m hm
          cases m <;> simp only [Spent] at hm ⊢
          case given e' => exact ⟨hm.1, hu _ s.given e (some true) (· ≠ none) e' (by simp) hm.2⟩
          all_goals exact hm
      · cases h
    · cases h
  | flush n =>
    simp only [step] at h
    split at h
    · cases h
      refine I.grow rfl (by simp [sends]) ?_ ?_
      · intro m hm
        simp [sends] at hm
        subst hm
        simp [Spent]
      · intro m hm
        cases m <;> simp only [Spent] at hm ⊢ <;> first | exact hm | omega
    · cases h
  | swapIn n =>
    simp only [step] at h
    split at h
    · split at h
      · cases h
        exact I.grow (l := []) (by simp) (by simp [sends]) (by simp [sends]) (fun m hm => by cases m <;> exact hm)
      · cases h
        exact I.grow rfl (by simp [sends]) (by simp [sends]) (fun m hm => by cases m <;> exact hm)
      · cases h
    · cases h
  | takeNode n =>
    simp only [step] at h
    split at h
    · split at h
      · cases h
        exact I.grow rfl (by simp [sends]) (by simp [sends]) (fun m hm => by cases m <;> exact hm)
      · cases h
    · cases h
  | visit e =>
    simp only [step] at h
    split at h
    · split at h
      · cases h
        exact I.grow rfl (by simp [sends]) (by simp [sends]) (fun m hm => by cases m <;> exact hm)
      · cases h
    · cases h
  | timeout e =>
    simp only [step] at h
    split at h
    · split at h
      · cases h
        exact I.grow rfl (by simp [sends]) (by simp [sends]) (fun m hm => by cases m <;> exact hm)
      · cases h
    · cases h
  | clear n =>
    simp only [step] at h
    split at h
    · cases h
      refine I.grow (l := clearOps (s.mem n) ++ [.snd .com (.back s.msgs)]) (by simp) ?_ ?_ ?_
      · rw [sends_append, sends_clearOps]; simp [sends]
      · intro m hm
        rw [sends_append, sends_clearOps] at hm
        simp [sends] at hm
        subst hm
        simp [Spent]
      · intro m hm
        cases m <;> simp only [Spent] at hm ⊢ <;> first | exact hm | omega
    · cases h
  | take e =>
    simp only [step] at h
    split at h
    · cases h
      refine I.grow rfl (by simp [sends]) (by simp [sends]) ?_
      intro m hm
      cases m <;> simp only [Spent] at hm ⊢
      case input e' => exact ⟨hm.1, hu _ s.w e .taken (· ≠ .pushed) e' (by simp) hm.2⟩
      all_goals exact hm
    · cases h
  | assign e =>
    simp only [step] at h
    split at h
    · split at h
      · cases h
      · cases h
        refine I.grow rfl (by simp [sends]) (by simp [sends]) ?_
        intro m hm
        cases m <;> simp only [Spent] at hm ⊢
        case input e' => exact ⟨hm.1, hu _ s.w e .assigned (· ≠ .pushed) e' (by simp) hm.2⟩
        all_goals exact hm
    · cases h
  | use g e f =>
    simp only [step] at h
    split at h
    · cases h
      exact I.grow rfl (by simp [sends]) (by simp [sends]) (fun m hm => by cases m <;> exact hm)
    · cases h
  | pass g g' e =>
    simp only [step] at h
    split at h
    · cases h
      refine I.grow rfl (by simp [sends]) ?_ ?_
      · intro m hm
        simp [sends] at hm
        subst hm
        simp [Spent]
      · intro m hm
        cases m <;> simp only [Spent] at hm ⊢ <;> first | exact hm | omega
    · cases h
  | finish e =>
    simp only [step] at h
    split at h
    · rename_i hc
      cases h
      refine I.grow rfl (by simp [sends]) ?_ ?_
      · intro m hm
        simp [sends] at hm
        subst hm
        simp [Spent, hc.2, upd_self]
      · intro m hm
        cases m <;> simp only [Spent] at hm ⊢
        case done e' => exact hu _ s.closed e true (· = true) e' rfl hm
        all_goals exact hm
    · cases h

theorem onces_reach {poolSize : Nat} (h : Reach pt poolSize s) : Onces s := by
  induction h with
  | init => exact ⟨by simp [sends, St.init], by simp [sends, St.init]⟩
  | step x _ hx ih => exact onces_step ih hx

/-- Two places of a list at which the same is sent are the same place. -/
theorem sends_inj {l : List Op} (h : (sends l).Nodup) {i j : Nat} {g g' : Gor} {m : Msg} (hi : l[i]? = some (.snd g m)) (hj : l[j]? = some (.snd g' m)) : i = j := by
  induction l generalizing i j with
  | nil => simp at hi
  | cons a l ih =>
    have hmem : ∀ {k : Nat} {g : Gor}, l[k]? = some (.snd g m) → m ∈ sends l := by
      intro k g hk
      exact List.mem_filterMap.mpr ⟨_, List.mem_of_getElem? hk, rfl⟩
    have hl : (sends l).Nodup := by
      cases a <;> simp [sends] at h ⊢ <;> first | exact h | exact h.2
    cases i with
    | zero =>
      cases j with
      | zero => rfl
      | succ j =>
        simp at hi hj
        subst hi
        simp [sends] at h
        have := hmem hj
        exact absurd (by simpa [sends] using this) (by simpa using h.1)
    | succ i =>
      cases j with
      | zero =>
        simp at hi hj
        subst hj
        have := hmem hi
        simp [sends] at h
        exact absurd (by simpa [sends] using this) (by simpa using h.1)
      | succ j =>
        simp at hi hj
        rw [ih hl hi hj]

/-- No operation of the list is an access of the commit loop to a producer. -/
def NoText (l : List Op) : Prop := ∀ a ∈ l, ¬ Text a

theorem users_step {x : Act} (h : step pt s x = some s') (I : ∀ g e, (g, e) ∈ s.refs → g.users = true) : ∀ g e, (g, e) ∈ s'.refs → g.users = true := by
  cases x <;> simp only [step] at h
  case create => cases h; exact I
  case assign e =>
    split at h
    · split at h
      · cases h
      · rename_i b _
        cases h
        intro g e' hm
        cases b with
        | false => exact I g e' hm
        | true =>
          simp only [if_true, List.mem_append, List.mem_singleton] at hm
          rcases hm with hm | hm
          · exact I g e' hm
          · cases hm; rfl
    · cases h
  case pass g1 g2 e =>
    split at h
    · rename_i hc
      cases h
      intro g e' hm
      rw [List.mem_append, List.mem_singleton] at hm
      rcases hm with hm | hm
      · exact I g e' hm
      · cases hm; exact hc.2
    · cases h
  all_goals (repeat' split at h) <;> (cases h <;> exact I)

theorem noText_step {x : Act} (hx : x.late = false) (h : step pt s x = some s') (U : ∀ g e, (g, e) ∈ s.refs → g.users = true) (I : NoText s.tr) : NoText s'.tr := by
  have key : ∀ l : List Op, s'.tr = s.tr ++ l → (∀ a ∈ l, ¬ Text a) → NoText s'.tr := by
    intro l hl hn a ha
    rw [hl, List.mem_append] at ha
    exact ha.elim (I a) (hn a)
  cases x <;> simp only [step] at h <;> simp only [Act.late] at hx <;> try cases hx
  case create => cases h; exact key _ rfl (by simp [Text])
  case clear =>
    split at h
    · cases h
      refine key _ (List.append_assoc _ _ _) ?_
      intro a ha
      rw [List.mem_append] at ha
      rcases ha with ha | ha
      · unfold clearOps at ha
        rw [List.mem_flatMap] at ha
        obtain ⟨e, -, he⟩ := ha
        simp at he
        rcases he with rfl | rfl <;> simp [Text]
      · simp at ha; subst ha; simp [Text]
    · cases h
  case link =>
    split at h
    · cases h
      refine key _ rfl ?_
      intro a ha
      unfold linkOps at ha
      split at ha <;> simp at ha
      · rcases ha with rfl | rfl | rfl <;> simp [Text]
      · subst ha; simp [Text]
    · cases h
  case use g e f =>
    split at h
    · rename_i hc
      cases h
      refine key _ rfl ?_
      intro a ha
      simp at ha
      subst ha
      rintro ⟨e', w', h⟩
      cases h
      exact absurd (U _ _ hc.1) (by simp [Gor.users])
    · cases h
  case swapIn =>
    split at h
    · split at h
      · cases h; exact I
      · cases h; exact key _ rfl (by simp [Text])
      · cases h
    · cases h
  all_goals (repeat' split at h) <;> (cases h <;> exact key _ rfl (by simp [Text]))

theorem Prompt.reach {poolSize : Nat} (h : Prompt pt poolSize s) : Reach pt poolSize s := by
  induction h with
  | init => exact .init
  | step x _ _ hx ih => exact .step x ih hx

theorem users_reach {poolSize : Nat} (h : Reach pt poolSize s) : ∀ g e, (g, e) ∈ s.refs → g.users = true := by
  induction h with
  | init => simp [St.init]
  | step x _ hx ih => exact users_step hx ih

theorem Prompt.noText {poolSize : Nat} (h : Prompt pt poolSize s) : NoText s.tr := by
  induction h with
  | init => intro a ha; simp [St.init] at ha
  | step x hr hl hx ih => exact noText_step hl hx (users_reach hr.reach) ih

end Verif.Shared
