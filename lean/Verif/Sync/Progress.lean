import Verif.Sync.Proofs
/-
Synchronisation makes progress and stops.
-/
set_option linter.unusedSimpArgs false
set_option linter.unnecessarySeqFocus false
namespace Verif.Sync
open Verif.Record

/-- The steps of `consume` and of the goroutines `populate`. -/
def internal : Label → Bool
  | .poll _ => true
  | .check => true
  | .eval => true
  | .send => true
  | .next _ => true
  | .record _ => true
  | _ => false

theorem internal_within {l : Label} (h : internal l = true) : within l = true := by cases l <;> first | rfl | cases h

/-- Work in a batch in a channel. -/
def wBuf (b : Buf) : Nat := (b.q.map fun x => 5 * x.length + 1).sum
/-- Work in a goroutine. -/
def wPop (p : Pop) : Nat := 5 * p.cur.length + if p.ended then 0 else 1

/-- A bound for the number of steps that are left. -/
def todo (s : SS) : Nat :=
  10 * (s.log.length - s.pos) + (match s.polled with | some b => 5 * b.length + 4 | none => 0)
    + (match s.passed with | some b => 5 * b.length + 3 | none => 0)
    + (match s.sending with | some (b, _) => 5 * b.length + 2 | none => 0)
    + (s.bufs.map wBuf).sum + (s.pops.map wPop).sum

theorem sum_setAt {α : Type} (f : α → Nat) {l : List α} {i : Nat} {x y : α} (h : l[i]? = some y) :
    ((setAt l i x).map f).sum + f y = (l.map f).sum + f x := by
  unfold setAt
  induction l generalizing i with
  | nil => simp at h
  | cons a l ih =>
    cases i with
    | zero => simp at h; subst h; simp; omega
    | succ i =>
      simp at h
      have := ih h
      simp only [List.set_cons_succ, List.map_cons, List.sum_cons]; omega

/-- `cancel` changes no batch. -/
theorem cancel_bufs (s : SS) : ((cancel s).bufs.map wBuf).sum = (s.bufs.map wBuf).sum := by
  unfold cancel kill
  dsimp only
  split
  · dsimp only
    split
    · rename_i b c hc
      have := sum_setAt wBuf (x := { c with closed := true }) hc
      have e : wBuf { c with closed := true } = wBuf c := rfl
      omega
    · rfl
  · rfl

/-- What `isCompletionMarker` leaves alone. -/
theorem completion_frame (s : SS) (m : Bytes) : (completion s m).1.log = s.log ∧ (completion s m).1.pos = s.pos ∧
    (completion s m).1.polled = s.polled ∧ (completion s m).1.passed = s.passed ∧ (completion s m).1.sending = s.sending ∧
    ((completion s m).1.bufs.map wBuf).sum = (s.bufs.map wBuf).sum ∧ (completion s m).1.pops = s.pops ∧
    (completion s m).1.applied = s.applied := by
  unfold completion
  split
  · dsimp only
    split
    · exact ⟨rfl, rfl, rfl, rfl, rfl, rfl, rfl, rfl⟩
    · obtain ⟨f1, f2, f3, f4, f5, f6, f7, f8, f9, f10, f11, f12, f13⟩ := kill_fields ({ ({ s with waiters := s.waiters.erase m, synced := s.synced ++ [m] } : SS) with state := .paused, held := true })
      exact ⟨f3, f7, f11, f12, f13, cancel_bufs _, f6, f8⟩
    · exact ⟨rfl, rfl, rfl, rfl, rfl, rfl, rfl, rfl⟩
  · exact ⟨rfl, rfl, rfl, rfl, rfl, rfl, rfl, rfl⟩

theorem todo_dec {s s' : SS} {l : Label} (hi : internal l = true) (h : step s l = some s') : todo s' < todo s := by
  cases l with
  | append => cases hi
  | prep => cases hi
  | cancel => cases hi
  | sync => cases hi
  | produce => cases hi
  | poll n =>
    simp only [step] at h
    split at h
    · cases h
    rename_i hn
    cases h
    simp only [not_or, not_not, Nat.not_le] at hn
    obtain ⟨n1, n2, n3, n4, n5⟩ := hn
    simp only [todo, n2, n3, n4, List.length_take, List.length_drop]
    omega
  | check =>
    simp only [step] at h
    split at h
    · rename_i b hb
      split at h <;> cases h <;> simp only [todo, hb]
      · omega
      · cases s.passed <;> simp <;> omega
    · cases h
  | eval =>
    simp only [step] at h
    split at h
    · rename_i b hb
      cases h
      simp only [todo, hb]
      cases s.sending <;> simp <;> omega
    · cases h
  | send =>
    simp only [step] at h
    split at h
    · rename_i b i hb
      split at h
      · rename_i c hc
        split at h
        · cases h; simp only [todo, hb]; omega
        · split at h
          · cases h
            have := sum_setAt wBuf (x := { c with q := c.q ++ [b] }) hc
            have e : wBuf { c with q := c.q ++ [b] } = wBuf c + (5 * b.length + 1) := by simp [wBuf]
            simp only [todo, hb]; omega
          · cases h
      · cases h
    · cases h
  | next i =>
    simp only [step] at h
    split at h
    · rename_i ch hp
      split at h
      · rename_i b q cl hc
        cases h
        have h1 := sum_setAt wBuf (x := ⟨q, cl⟩) hc
        have h2 := sum_setAt wPop (x := ⟨ch, b, false⟩) hp
        simp only [wBuf, wPop, List.map_cons, List.sum_cons, List.length_nil] at h1 h2
        simp only [todo, wBuf, wPop] at h1 h2 ⊢
        simp only [Bool.false_eq_true, if_false] at h1 h2
        change _ + (List.map wBuf _).sum + (List.map wPop _).sum < _ + (List.map wBuf _).sum + (List.map wPop _).sum
        change (List.map wBuf _).sum + _ = (List.map wBuf _).sum + _ at h1
        change (List.map wPop _).sum + _ = (List.map wPop _).sum + _ at h2
        omega
      · rename_i hc
        cases h
        have h2 := sum_setAt wPop (x := ⟨ch, [], true⟩) hp
        have e1 : wPop ⟨ch, [], true⟩ = 0 := rfl
        have e2 : wPop ⟨ch, [], false⟩ = 1 := rfl
        simp only [todo]
        omega
      · cases h
    · cases h
  | record i =>
    simp only [step] at h
    split at h
    · rename_i ch r rest hp
      cases h
      have hx : ∀ e, wPop ⟨ch, rest, e⟩ < wPop ⟨ch, r :: rest, false⟩ := by
        intro e
        simp only [wPop, List.length_cons, Bool.false_eq_true, if_false]
        have : (if e = true then 0 else 1 : Nat) ≤ 1 := by split <;> omega
        omega
      have key : ∀ (s1 : SS) (e : Bool), s1.log = s.log → s1.pos = s.pos → s1.polled = s.polled → s1.passed = s.passed →
          s1.sending = s.sending → (s1.bufs.map wBuf).sum = (s.bufs.map wBuf).sum → s1.pops = s.pops →
          todo { s1 with pops := setAt s1.pops i ⟨ch, rest, e⟩ } < todo s := by
        intro s1 e k1 k2 k3 k4 k5 k6 k7
        have h2 := sum_setAt wPop (x := ⟨ch, rest, e⟩) hp
        have h3 := hx e
        simp only [todo, k1, k2, k3, k4, k5, k6, k7]
        omega
      unfold handle
      split
      · obtain ⟨f1, f2, f3, f4, f5, f6, f7, f8⟩ := completion_frame s (markOf r)
        exact key _ _ f1 f2 f3 f4 f5 f6 f7
      · exact key { s with applied := s.applied ++ [r] } _ rfl rfl rfl rfl rfl rfl rfl
    · cases h

/-- Nothing is left to do for `consume` and the goroutines. -/
def Quiet (s : SS) : Prop := ∀ l, internal l = true → step s l = none

/-- At the end of a synchronisation that is not complete all records of the log were handled. -/
theorem quiet_all {s0 s : SS} {st : PState} {ms : List Bytes} {d cur : List KRecord} {q : List (List KRecord)}
    (R : Running s0 s st ms d cur q) (hq : Quiet s) : d = s.log := by
  have hcur : cur = [] := by
    cases cur with
    | nil => rfl
    | cons r rest =>
      have := hq (.record s0.pops.length) rfl
      simp only [step, R.pop] at this
      cases this
  subst hcur
  have hqq : q = [] := by
    cases q with
    | nil => rfl
    | cons b q =>
      have := hq (.next s0.pops.length) rfl
      simp only [step, R.pop, R.chan] at this
      cases this
  subst hqq
  have hs : s.sending = none := by
    cases h : s.sending with
    | none => rfl
    | some x =>
      obtain ⟨b, i⟩ := x
      have hi := R.send b i h
      subst hi
      have := hq .send rfl
      simp [step, h, R.chan] at this
  have hp : s.passed = none := by
    cases h : s.passed with
    | none => rfl
    | some x =>
      have := hq .eval rfl
      simp [step, h] at this
  have ho : s.polled = none := by
    cases h : s.polled with
    | none => rfl
    | some x =>
      have := hq .check rfl
      simp only [step, h] at this
      split at this <;> cases this
  have hl := R.log
  simp only [inHand, hs, hp, ho, List.flatten_nil, List.append_nil, Option.getD_none] at hl
  rw [← hl]
  have : s.log.length ≤ s.pos := by
    by_contra hn
    have := hq (.poll 0) rfl
    simp only [step] at this
    rw [if_neg] at this
    · cases this
    · simp only [not_or, R.held, ho, hp, hs]; simp; omega
  exact List.take_of_length_le this

/-- If every goroutine has returned, no step but `prep` changes the store. -/
theorem ended_step {s s' : SS} {l : Label} (hw : within l = true) (he : ∀ (i : Nat) (p : Pop), s.pops[i]? = some p → p.ended = true)
    (h : step s l = some s') : s'.applied = s.applied ∧ s'.synced = s.synced ∧ s'.pops = s.pops := by
  cases l with
  | prep => cases hw
  | cancel => cases hw
  | append => simp only [step] at h; split at h <;> cases h; exact ⟨rfl, rfl, rfl⟩
  | produce => simp only [step] at h; split at h <;> cases h; exact ⟨rfl, rfl, rfl⟩
  | sync => simp only [step] at h; split at h <;> cases h; exact ⟨rfl, rfl, rfl⟩
  | poll => simp only [step] at h; split at h <;> cases h; exact ⟨rfl, rfl, rfl⟩
  | check =>
    simp only [step] at h
    split at h
    · split at h <;> cases h <;> exact ⟨rfl, rfl, rfl⟩
    · cases h
  | eval => simp only [step] at h; split at h <;> cases h; exact ⟨rfl, rfl, rfl⟩
  | send =>
    simp only [step] at h
    split at h
    · split at h
      · split at h
        · cases h; exact ⟨rfl, rfl, rfl⟩
        · split at h <;> cases h; exact ⟨rfl, rfl, rfl⟩
      · cases h
    · cases h
  | next i =>
    simp only [step] at h
    split at h
    · rename_i ch hp
      cases he _ _ hp
    · cases h
  | record i =>
    simp only [step] at h
    split at h
    · rename_i ch r rest hp
      cases he _ _ hp
    · cases h

/-- Later states of the same synchronisation. -/
inductive Later : SS → SS → Prop where
  | refl (s : SS) : Later s s
  | step {s s' s'' : SS} (l : Label) : Later s s' → within l = true → step s' l = some s'' → Later s s''

theorem sess_later {s0 s s' : SS} {st : PState} {fresh : Bool} (h : Sess s0 st fresh s) (hl : Later s s') : Sess s0 st fresh s' := by
  induction hl with
  | refl => exact h
  | step l _ hw hs ih => exact .step l ih hw hs

theorem ended_later {s s' : SS} (he : ∀ (i : Nat) (p : Pop), s.pops[i]? = some p → p.ended = true) (hl : Later s s') :
    s'.applied = s.applied ∧ s'.synced = s.synced ∧ s'.pops = s.pops := by
  induction hl with
  | refl => exact ⟨rfl, rfl, rfl⟩
  | step l _ hw hs ih =>
    have := ended_step hw (by rw [ih.2.2]; exact he) hs
    exact ⟨this.1.trans ih.1, this.2.1.trans ih.2.1, this.2.2.trans ih.2.2⟩

theorem log_later {s s' : SS} (hl : Later s s') : s.log <+: s'.log := by
  induction hl with
  | refl => exact List.prefix_rfl
  | @step b c l _ hw hs ih =>
    refine ih.trans ?_
    cases l with
    | prep => cases hw
    | cancel => cases hw
    | append => simp only [step] at hs; split at hs <;> cases hs; exact List.prefix_append _ _
    | produce => simp only [step] at hs; split at hs <;> cases hs; exact List.prefix_append _ _
    | sync => simp only [step] at hs; split at hs <;> cases hs; exact List.prefix_rfl
    | poll => simp only [step] at hs; split at hs <;> cases hs; exact List.prefix_rfl
    | check =>
      simp only [step] at hs
      split at hs
      · split at hs <;> cases hs <;> exact List.prefix_rfl
      · cases hs
    | eval => simp only [step] at hs; split at hs <;> cases hs; exact List.prefix_rfl
    | send =>
      simp only [step] at hs
      split at hs
      · split at hs
        · split at hs
          · cases hs; exact List.prefix_rfl
          · split at hs <;> cases hs; exact List.prefix_rfl
        · cases hs
      · cases hs
    | next i =>
      simp only [step] at hs
      split at hs
      · split at hs <;> cases hs <;> exact List.prefix_rfl
      · cases hs
    | record i =>
      simp only [step] at hs
      split at hs
      · cases hs
        unfold handle
        split
        · show b.log <+: (completion _ _).1.log
          rw [(completion_frame _ _).1]; exact List.prefix_rfl
        · exact List.prefix_rfl
      · cases hs

end Verif.Sync
