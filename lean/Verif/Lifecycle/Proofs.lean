import Verif.Lifecycle.Model
import Mathlib.Tactic.Common
import Mathlib.Data.List.Nodup
import Mathlib.Data.List.Induction
/-
Invariants of the life of the stores.
-/
set_option linter.unnecessarySeqFocus false
namespace Verif.Lifecycle

/-- Specification: the effect of an event on the stores that serve the partitions. -/
def cur1 (f : Nat → Option Nat) : Ev → (Nat → Option Nat)
  | .created st p => fun q => if q = p then some st else f q
  | .revoked st => fun q => if f q = some st then none else f q
  | _ => f

/-- Specification: the store that serves a partition after what happened: the last one created, unless it was revoked. -/
def current (t : List Ev) : Nat → Option Nat := t.foldl cur1 fun _ => none

theorem current_append (t : List Ev) (e : Ev) : current (t ++ [e]) = cur1 (current t) e := by simp [current]

/-- The stores on which `Revoked` was called. -/
def revokedIds (t : List Ev) : List Nat := t.filterMap fun | .revoked st => some st | _ => none

/-- The stores that were created. -/
def createdIds (t : List Ev) : List Nat := t.filterMap fun | .created st _ => some st | _ => none

/-- Specification: a store is created for a partition only if none serves it. -/
inductive Once : List Ev → Prop where
  | nil : Once []
  | created {t : List Ev} {st p : Nat} : Once t → current t p = none → Once (t ++ [.created st p])
  | other {t : List Ev} {e : Ev} : Once t → (∀ st p, e ≠ .created st p) → Once (t ++ [e])

structure Inv (s : LC) : Prop where
  cur : ∀ p, current s.trace p = s.data p
  once : Once s.trace
  data : ∀ p st, s.data p = some st → st < s.count ∧ Ev.created st p ∈ s.trace
  inj : ∀ p q st, s.data p = some st → s.data q = some st → p = q
  rev : ∀ st, st ∈ revokedIds s.trace → st < s.count ∧ ∀ p, s.data p ≠ some st
  revNodup : (revokedIds s.trace).Nodup
  cre : ∀ st, st ∈ createdIds s.trace → st < s.count
  creNodup : (createdIds s.trace).Nodup
  work : ∀ p w, s.workers p = some w → ∃ st, s.all[w]? = some ⟨p, st⟩ ∧ s.data p = some st
  allc : ∀ x ∈ s.all, Ev.created x.store x.part ∈ s.trace

theorem inv_init : Inv LC.init := by
  refine { cur := ?_, once := .nil, data := ?_, inj := ?_, rev := ?_, revNodup := ?_, cre := ?_, creNodup := ?_, work := ?_, allc := ?_ } <;>
    simp [LC.init, current, revokedIds, createdIds]

theorem put_same (f : Nat → Option Nat) (p : Nat) (v : Option Nat) : put f p v p = v := by simp [put]
theorem put_ne (f : Nat → Option Nat) {p q : Nat} (v : Option Nat) (h : q ≠ p) : put f p v q = f q := by simp [put, h]

theorem inv_storeAssign {s : LC} (I : Inv s) (p : Nat) : Inv (storeAssign s p).1 ∧ (storeAssign s p).1.data p = some (storeAssign s p).2 ∧
    (storeAssign s p).1.prepping = s.prepping ∧ (storeAssign s p).1.workers = s.workers ∧ (storeAssign s p).1.all = s.all ∧
    (storeAssign s p).1.feeds = s.feeds ∧ (∀ q st, s.data q = some st → (storeAssign s p).1.data q = some st) := by
  unfold storeAssign
  split
  · rename_i st h
    exact ⟨I, h, rfl, rfl, rfl, rfl, fun _ _ h => h⟩
  · rename_i h
    refine ⟨?_, by simp [put], rfl, rfl, rfl, rfl, ?_⟩
    · refine { cur := ?_, once := ?_, data := ?_, inj := ?_, rev := ?_, revNodup := ?_, cre := ?_, creNodup := ?_, work := ?_, allc := ?_ }
      all_goals try dsimp only
      · intro q
        rw [current_append]
        simp only [cur1, put]
        split
        · rfl
        · exact I.cur q
      · exact .created I.once (by rw [I.cur p]; exact h)
      · intro q st hq
        by_cases e : q = p
        · subst e
          rw [put_same] at hq
          cases hq
          exact ⟨Nat.lt_succ_self _, by simp⟩
        · rw [put_ne _ _ e] at hq
          have := I.data q st hq
          exact ⟨Nat.lt_succ_of_lt this.1, List.mem_append.2 (.inl this.2)⟩
      · intro q q' st h1 h2
        by_cases e : q = p <;> by_cases e' : q' = p
        · rw [e, e']
        · subst e; rw [put_same] at h1; rw [put_ne _ _ e'] at h2; cases h1
          exact absurd (I.data q' _ h2).1 (Nat.lt_irrefl _)
        · subst e'; rw [put_same] at h2; rw [put_ne _ _ e] at h1; cases h2
          exact absurd (I.data q _ h1).1 (Nat.lt_irrefl _)
        · rw [put_ne _ _ e] at h1; rw [put_ne _ _ e'] at h2
          exact I.inj q q' st h1 h2
      · intro st hst
        have h0 : st ∈ revokedIds s.trace := by simpa [revokedIds] using hst
        obtain ⟨h1, h2⟩ := I.rev st h0
        refine ⟨Nat.lt_succ_of_lt h1, fun q => ?_⟩
        by_cases e : q = p
        · subst e; rw [put_same]; intro hc; cases hc; exact Nat.lt_irrefl _ h1
        · rw [put_ne _ _ e]; exact h2 q
      · have := I.revNodup
        simpa [revokedIds] using this
      · intro st hst
        simp only [createdIds, List.filterMap_append, List.mem_append] at hst
        rcases hst with h | h
        · exact Nat.lt_succ_of_lt (I.cre st h)
        · simp at h; subst h; exact Nat.lt_succ_self _
      · simp only [createdIds, List.filterMap_append]
        rw [List.nodup_append]
        refine ⟨I.creNodup, by simp, ?_⟩
        intro a ha b hb e
        simp at hb
        subst hb; subst e
        exact absurd (I.cre _ ha) (Nat.lt_irrefl _)
      · intro q w hw
        obtain ⟨st, k1, k2⟩ := I.work q w hw
        refine ⟨st, k1, ?_⟩
        have : q ≠ p := by rintro rfl; rw [h] at k2; cases k2
        exact (put_ne _ _ this).trans k2
      · intro x hx
        exact List.mem_append.2 (.inl (I.allc x hx))
    · intro q st hq
      have : q ≠ p := by rintro rfl; rw [h] at hq; cases hq
      exact (put_ne _ _ this).trans hq

theorem inv_storeRevoke {s : LC} (I : Inv s) (p : Nat) (hw : s.workers p = none) : Inv (storeRevoke s p) := by
  unfold storeRevoke
  split
  · rename_i st h
    refine { cur := ?_, once := ?_, data := ?_, inj := ?_, rev := ?_, revNodup := ?_, cre := ?_, creNodup := ?_, work := ?_, allc := ?_ }
    all_goals try dsimp only
    · intro q
      rw [current_append]
      simp only [cur1]
      rw [I.cur q]
      by_cases e : q = p
      · subst e; rw [put_same, if_pos h]
      · rw [put_ne _ _ e, if_neg]
        intro hq; exact e (I.inj q p st hq h)
    · exact .other I.once (by intro _ _ h; cases h)
    · intro q x hq
      by_cases e : q = p
      · subst e; rw [put_same] at hq; cases hq
      · rw [put_ne _ _ e] at hq
        exact ⟨(I.data q x hq).1, List.mem_append.2 (.inl (I.data q x hq).2)⟩
    · intro q q' x h1 h2
      by_cases e : q = p
      · subst e; rw [put_same] at h1; cases h1
      by_cases e' : q' = p
      · subst e'; rw [put_same] at h2; cases h2
      rw [put_ne _ _ e] at h1; rw [put_ne _ _ e'] at h2
      exact I.inj q q' x h1 h2
    · intro x hx
      have hx' : x ∈ revokedIds s.trace ∨ x = st := by simpa [revokedIds] using hx
      rcases hx' with hx | rfl
      · refine ⟨(I.rev x hx).1, fun q => ?_⟩
        by_cases e : q = p
        · subst e; rw [put_same]; simp
        · rw [put_ne _ _ e]; exact (I.rev x hx).2 q
      · refine ⟨(I.data p x h).1, fun q => ?_⟩
        by_cases e : q = p
        · subst e; rw [put_same]; simp
        · rw [put_ne _ _ e]; intro hq; exact e (I.inj q p x hq h)
    · simp only [revokedIds, List.filterMap_append]
      rw [List.nodup_append]
      refine ⟨I.revNodup, by simp, ?_⟩
      intro a ha b hb e
      simp at hb
      subst hb; subst e
      exact (I.rev _ ha).2 p h
    · have := I.cre
      simpa [createdIds] using this
    · have := I.creNodup
      simpa [createdIds] using this
    · intro q w hq
      obtain ⟨x, k1, k2⟩ := I.work q w hq
      have : q ≠ p := by rintro rfl; rw [hw] at hq; cases hq
      exact ⟨x, k1, (put_ne _ _ this).trans k2⟩
    · intro x hx
      exact List.mem_append.2 (.inl (I.allc x hx))
  · exact I

theorem inv_trace {s : LC} (I : Inv s) {e : Ev} (h1 : ∀ st p, e ≠ .created st p) (h2 : ∀ st, e ≠ .revoked st) :
    Inv { s with trace := s.trace ++ [e] } := by
  have hr : revokedIds (s.trace ++ [e]) = revokedIds s.trace := by
    cases e <;> simp [revokedIds] <;> exact absurd rfl (h2 _)
  have hc : createdIds (s.trace ++ [e]) = createdIds s.trace := by
    cases e <;> simp [createdIds] <;> exact absurd rfl (h1 _ _)
  have hk : current (s.trace ++ [e]) = current s.trace := by
    rw [current_append]
    cases e <;> first | rfl | exact absurd rfl (h2 _) | exact absurd rfl (h1 _ _)
  exact { cur := by dsimp only; rw [hk]; exact I.cur, once := .other I.once h1,
          data := fun p st h => ⟨(I.data p st h).1, List.mem_append.2 (.inl (I.data p st h).2)⟩, inj := I.inj,
          rev := by dsimp only; rw [hr]; exact I.rev, revNodup := by dsimp only; rw [hr]; exact I.revNodup,
          cre := by dsimp only; rw [hc]; exact I.cre, creNodup := by dsimp only; rw [hc]; exact I.creNodup, work := I.work,
          allc := fun x hx => List.mem_append.2 (.inl (I.allc x hx)) }

/-- A new worker for `p` with the store that serves `p`. -/
theorem inv_worker {s : LC} (I : Inv s) {p st : Nat} (h : s.data p = some st) (pr : Nat → Option Nat) (fe : List (Nat × Nat)) :
    Inv { s with prepping := pr, feeds := fe, workers := put s.workers p (some s.all.length), all := s.all ++ [⟨p, st⟩] } := by
  refine { I with work := ?_, allc := ?_ }
  · intro q w hw
    by_cases e : q = p
    · subst e
      dsimp only at hw
      rw [put_same] at hw
      cases hw
      exact ⟨st, by simp, h⟩
    · dsimp only at hw
      rw [put_ne _ _ e] at hw
      obtain ⟨x, k1, k2⟩ := I.work q w hw
      refine ⟨x, ?_, k2⟩
      rw [List.getElem?_append_left (List.getElem?_eq_some_iff.1 k1).1]
      exact k1
  · intro x hx
    rcases List.mem_append.1 hx with h' | h'
    · exact I.allc x h'
    · rw [List.mem_singleton.1 h']
      exact (I.data p st h).2

theorem inv_assign1 {s : LC} (I : Inv s) (p : Nat) : Inv (assign1 s p) := by
  unfold assign1
  obtain ⟨J, hd, h1, h2, h3, h4, h5⟩ := inv_storeAssign I p
  dsimp only
  split
  · exact inv_worker J hd _ _
  · split
    · exact J
    · exact inv_worker J hd _ _

theorem inv_revoke1 {s : LC} (I : Inv s) (p : Nat) : Inv (revoke1 s p) := by
  unfold revoke1
  apply inv_storeRevoke
  · refine { I with work := ?_ }
    intro q w hw
    by_cases e : q = p
    · subst e; dsimp only at hw; rw [put_same] at hw; cases hw
    · dsimp only at hw; rw [put_ne _ _ e] at hw; exact I.work q w hw
  · exact put_same _ _ _

theorem inv_step {s : LC} (I : Inv s) (o : Op) : Inv (step s o) := by
  cases o with
  | prepare p =>
    show Inv (prepare s p)
    unfold prepare
    split
    · exact I
    · exact { (inv_storeAssign I p).1 with }
  | forget p =>
    show Inv (forget s p)
    unfold forget
    split
    · exact { I with }
    · exact I
  | assign ps =>
    show Inv (assign s ps)
    unfold assign
    induction ps generalizing s with
    | nil => exact I
    | cons p ps ih => exact ih (inv_assign1 I p)
  | revoke ps =>
    show Inv (revoke s ps)
    unfold revoke
    induction ps generalizing s with
    | nil => exact I
    | cons p ps ih => exact ih (inv_revoke1 I p)
  | event w =>
    simp only [step]
    split
    · exact inv_trace I (by intro _ _ h; cases h) (by intro _ h; cases h)
    · exact I
  | apply i =>
    simp only [step]
    split
    · exact inv_trace I (by intro _ _ h; cases h) (by intro _ h; cases h)
    · exact I

theorem inv_run (ops : List Op) : Inv (run LC.init ops) := by
  have H : ∀ (ops : List Op) (s : LC), Inv s → Inv (run s ops) := by
    intro ops
    induction ops with
    | nil => intro s h; exact h
    | cons o ops ih => intro s h; exact ih _ (inv_step h o)
  exact H ops _ inv_init

/-- The parts of a trace in which a store is created for a partition only if none serves it. -/
theorem once_prefix {a b : List Ev} (h : Once (a ++ b)) : Once a := by
  induction b using List.reverseRecOn with
  | nil => simpa using h
  | append_singleton b e ih =>
    apply ih
    rw [← List.append_assoc] at h
    generalize hg : a ++ b ++ [e] = t at h
    cases h with
    | nil => simp at hg
    | created h _ => rw [(List.append_inj' hg rfl).1]; exact h
    | other h _ => rw [(List.append_inj' hg rfl).1]; exact h

theorem once_created {t : List Ev} {st p : Nat} (h : Once (t ++ [.created st p])) : current t p = none := by
  generalize hg : t ++ [Ev.created st p] = u at h
  cases h with
  | nil => simp at hg
  | created _ h2 =>
    obtain ⟨e1, e2⟩ := List.append_inj' hg rfl
    cases e2
    rw [e1]; exact h2
  | other _ h2 =>
    obtain ⟨_, e2⟩ := List.append_inj' hg rfl
    cases e2
    exact absurd rfl (h2 _ _)

/-- A store serves its partition until it is revoked. -/
theorem serves_until {a b : List Ev} {st p : Nat} (h : Once (a ++ .created st p :: b)) (hn : Ev.revoked st ∉ b) :
    current (a ++ .created st p :: b) p = some st := by
  induction b using List.reverseRecOn with
  | nil => rw [current_append]; simp [cur1]
  | append_singleton b e ih =>
    have hsplit : a ++ Ev.created st p :: (b ++ [e]) = (a ++ Ev.created st p :: b) ++ [e] := by simp
    rw [hsplit] at h ⊢
    have h' := ih (once_prefix h) (fun hc => hn (List.mem_append.2 (.inl hc)))
    rw [current_append]
    cases e with
    | created x q =>
      simp only [cur1]
      have := once_created h
      split
      · rename_i hq
        subst hq
        rw [h'] at this; cases this
      · exact h'
    | revoked x =>
      simp only [cur1]
      rw [if_neg]
      · exact h'
      · rw [h']
        intro hc
        cases hc
        exact hn (by simp)
    | handled _ _ => exact h'
    | applied _ _ => exact h'

/-! Operations in the order in which a group member gets them. -/

/-- A partition is prepared only while it is not assigned, and revoked only while it is not being prepared. -/
def Legal (s : LC) : Op → Prop
  | .prepare p => s.workers p = none
  | .revoke ps => ∀ p ∈ ps, s.prepping p = none
  | _ => True

/-- The states that such operations reach. -/
inductive Reach : LC → Prop where
  | init : Reach LC.init
  | step {s : LC} (o : Op) : Reach s → Legal s o → Reach (step s o)

structure Fed (s : LC) : Prop where
  inv : Inv s
  prep : ∀ p st, s.prepping p = some st → s.data p = some st ∧ (p, st) ∈ s.feeds
  work : ∀ p w x, s.workers p = some w → s.all[w]? = some x → (p, x.store) ∈ s.feeds

theorem fed_assign1 {s : LC} (F : Fed s) (p : Nat) : Fed (assign1 s p) := by
  refine ⟨inv_assign1 F.inv p, ?_, ?_⟩
  · obtain ⟨J, hd, h1, h2, h3, h4, h5⟩ := inv_storeAssign F.inv p
    unfold assign1
    dsimp only
    split
    · intro q st hq
      by_cases e : q = p
      · subst e; dsimp only at hq; rw [put_same] at hq; cases hq
      · dsimp only at hq ⊢
        rw [put_ne _ _ e, h1] at hq
        obtain ⟨k1, k2⟩ := F.prep q st hq
        exact ⟨h5 _ _ k1, by rw [h4]; exact k2⟩
    · split
      · intro q st hq
        rw [h1] at hq
        obtain ⟨k1, k2⟩ := F.prep q st hq
        exact ⟨h5 _ _ k1, by rw [h4]; exact k2⟩
      · intro q st hq
        dsimp only at hq ⊢
        rw [h1] at hq
        obtain ⟨k1, k2⟩ := F.prep q st hq
        exact ⟨h5 _ _ k1, List.mem_append.2 (.inl (by rw [h4]; exact k2))⟩
  · obtain ⟨J, hd, h1, h2, h3, h4, h5⟩ := inv_storeAssign F.inv p
    have old : ∀ q w x, (storeAssign s p).1.workers q = some w → (storeAssign s p).1.all[w]? = some x →
        (q, x.store) ∈ (storeAssign s p).1.feeds := by
      rw [h2, h3, h4]; exact F.work
    have key : ∀ (fe : List (Nat × Nat)), (p, (storeAssign s p).2) ∈ fe → (∀ z ∈ (storeAssign s p).1.feeds, z ∈ fe) → ∀ q w x,
        put (storeAssign s p).1.workers p (some (storeAssign s p).1.all.length) q = some w →
        ((storeAssign s p).1.all ++ [⟨p, (storeAssign s p).2⟩])[w]? = some x → (q, x.store) ∈ fe := by
      intro fe m1 m2 q w x hw hx
      by_cases e : q = p
      · subst e
        rw [put_same] at hw
        cases hw
        simp at hx
        rw [← hx]; exact m1
      · rw [put_ne _ _ e] at hw
        obtain ⟨st, k1, _⟩ := J.work q w hw
        rw [List.getElem?_append_left (List.getElem?_eq_some_iff.1 k1).1] at hx
        exact m2 _ (old q w x hw hx)
    unfold assign1
    dsimp only
    split
    · rename_i st hp
      refine key _ ?_ (fun z hz => hz)
      rw [h1] at hp
      obtain ⟨k1, k2⟩ := F.prep p st hp
      have := h5 _ _ k1
      rw [hd] at this
      cases this
      rw [h4]; exact k2
    · split
      · exact old
      · exact key _ (by simp) (fun z hz => List.mem_append.2 (.inl hz))

theorem storeRevoke_other (s : LC) (p : Nat) : (storeRevoke s p).prepping = s.prepping ∧ (storeRevoke s p).workers = s.workers ∧
    (storeRevoke s p).all = s.all ∧ (storeRevoke s p).feeds = s.feeds ∧ (∀ q, q ≠ p → (storeRevoke s p).data q = s.data q) ∧
    (storeRevoke s p).data p = none := by
  unfold storeRevoke
  split
  · exact ⟨rfl, rfl, rfl, rfl, fun q h => put_ne _ _ h, put_same _ _ _⟩
  · rename_i h
    exact ⟨rfl, rfl, rfl, rfl, fun _ _ => rfl, h⟩

theorem fed_revoke1 {s : LC} (F : Fed s) (p : Nat) (hp : s.prepping p = none) : Fed (revoke1 s p) := by
  refine ⟨inv_revoke1 F.inv p, ?_, ?_⟩
  · unfold revoke1
    obtain ⟨h1, h2, h3, h4, h5, h6⟩ := storeRevoke_other { s with workers := put s.workers p none } p
    intro q st hq
    rw [h1] at hq
    have e : q ≠ p := by rintro rfl; dsimp only at hq; rw [hp] at hq; cases hq
    rw [h4, h5 q e]
    exact F.prep q st hq
  · unfold revoke1
    obtain ⟨h1, h2, h3, h4, h5, h6⟩ := storeRevoke_other { s with workers := put s.workers p none } p
    intro q w x hw hx
    rw [h2] at hw
    rw [h3] at hx
    rw [h4]
    by_cases e : q = p
    · subst e; dsimp only at hw; rw [put_same] at hw; cases hw
    · dsimp only at hw; rw [put_ne _ _ e] at hw
      exact F.work q w x hw hx

theorem fed_step {s : LC} (F : Fed s) (o : Op) (hl : Legal s o) : Fed (step s o) := by
  cases o with
  | prepare p =>
    refine ⟨inv_step F.inv _, ?_, ?_⟩
    · show ∀ q st, (prepare s p).prepping q = some st → _ ∧ _
      obtain ⟨J, hd, h1, h2, h3, h4, h5⟩ := inv_storeAssign F.inv p
      simp only [step]
      unfold prepare
      split
      · exact F.prep
      · intro q st hq
        by_cases e : q = p
        · subst e
          dsimp only at hq ⊢
          rw [put_same] at hq
          cases hq
          exact ⟨hd, by simp⟩
        · dsimp only at hq ⊢
          rw [put_ne _ _ e, h1] at hq
          obtain ⟨k1, k2⟩ := F.prep q st hq
          exact ⟨h5 _ _ k1, List.mem_append.2 (.inl (by rw [h4]; exact k2))⟩
    · obtain ⟨J, hd, h1, h2, h3, h4, h5⟩ := inv_storeAssign F.inv p
      simp only [step]
      unfold prepare
      split
      · exact F.work
      · intro q w x hw hx
        dsimp only at hw hx ⊢
        rw [h2] at hw; rw [h3] at hx; rw [h4]
        exact List.mem_append.2 (.inl (F.work q w x hw hx))
  | forget p =>
    refine ⟨inv_step F.inv _, ?_, ?_⟩
    · simp only [step]
      unfold forget
      split
      · intro q st hq
        by_cases e : q = p
        · subst e; dsimp only at hq; rw [put_same] at hq; cases hq
        · dsimp only at hq; rw [put_ne _ _ e] at hq
          exact F.prep q st hq
      · exact F.prep
    · simp only [step]
      unfold forget
      split
      · exact F.work
      · exact F.work
  | assign ps =>
    show Fed (assign s ps)
    unfold assign
    clear hl
    induction ps generalizing s with
    | nil => exact F
    | cons p ps ih => exact ih (fed_assign1 F p)
  | revoke ps =>
    show Fed (revoke s ps)
    unfold revoke
    have hl' : ∀ p ∈ ps, s.prepping p = none := hl
    clear hl
    induction ps generalizing s with
    | nil => exact F
    | cons p ps ih =>
      refine ih (fed_revoke1 F p (hl' p (by simp))) ?_
      intro q hq
      unfold revoke1
      rw [(storeRevoke_other _ p).1]
      exact hl' q (List.mem_cons_of_mem _ hq)
  | event w =>
    refine ⟨inv_step F.inv _, ?_, ?_⟩ <;> simp only [step] <;> split
    · exact F.prep
    · exact F.prep
    · exact F.work
    · exact F.work
  | apply i =>
    refine ⟨inv_step F.inv _, ?_, ?_⟩ <;> simp only [step] <;> split
    · exact F.prep
    · exact F.prep
    · exact F.work
    · exact F.work

theorem fed_reach {s : LC} (h : Reach s) : Fed s := by
  induction h with
  | init => exact ⟨inv_init, by simp [LC.init], by simp [LC.init]⟩
  | step o _ hl ih => exact fed_step ih o hl

end Verif.Lifecycle
