import Verif.Locks.Spec
import Mathlib.Tactic.Common
/-
Proofs about the locks.
-/
namespace Verif.Locks

/-! ### The discipline of the programs -/

/-- The order in which the locks are taken (`streams/source_consumer.go:139-242`). -/
def rank : Lock → Nat
  | .worker => 0
  | .prepping => 1
  | .status => 2
  | .stores => 3
  | .consumer => 4

/-- The locks are taken in the order of their ranks, released once, only the group goroutine waits, with `statusLock` alone, and only it takes `statusLock` while it has
`preppingMux` (`streams/source_consumer.go:139-242`, `streams/incr_rebalancer.go:365-426`). -/
def Ok (g : Bool) : List Lock → List Instr → Prop
  | held, [] => held = []
  | held, .lock l :: r =>
    (∀ k ∈ held, rank k < rank l) ∧ (g = true ∨ ¬ (Lock.prepping ∈ held ∧ l = .status)) ∧ Ok g (l :: held) r
  | held, .unlock l :: r => l ∈ held ∧ Ok g (held.filter (· ≠ l)) r
  | held, .wait :: r => g = true ∧ held = [.status] ∧ Ok g held r
  | held, .prepare _ :: r => Ok g held r
  | held, .forget _ :: r => Ok g held r
  | held, .synced :: r => Ok g held r

theorem ok_prepare (k : Bool) : Ok false [] (prepareProg k) := by
  cases k <;> simp [prepareProg, Ok, rank]

theorem ok_forget (k : Bool) : Ok false [] (forgetProg k) := by
  cases k <;> simp [forgetProg, Ok, rank]

theorem ok_synced : Ok false [] syncedProg := by simp [syncedProg, Ok]

/-- A piece of a program that leaves the locks as they were (`streams/source_consumer.go:190-242`). -/
def Bal (g : Bool) (held : List Lock) (p : List Instr) : Prop := ∀ r, Ok g held r → Ok g held (p ++ r)

theorem bal_flatMap {α : Type} {g : Bool} {held : List Lock} {f : α → List Instr} (l : List α) (h : ∀ a ∈ l, Bal g held (f a)) :
    Bal g held (l.flatMap f) := by
  induction l with
  | nil => intro r hr; simpa using hr
  | cons a l ih =>
    intro r hr
    rw [List.flatMap_cons, List.append_assoc]
    exact h a (by simp) _ (ih (fun b hb => h b (by simp [hb])) r hr)

theorem bal_callback (g : Bool) (n : Nat) : Bal g [] (callback n) := by
  induction n with
  | zero => intro r hr; simpa [callback] using hr
  | succ n ih =>
    intro r hr
    have := ih r hr
    simp only [callback, List.replicate_succ, List.flatten_cons, workerProg, List.append_assoc] at this ⊢
    simpa [Ok, rank] using this

theorem ok_free (f : Free) : Ok false [] f.prog := by
  cases f with
  | worker n => simpa [Free.prog] using bal_callback false n [] (by simp [Ok])
  | status => simp [Free.prog, Ok]
  | consumer => simp [Free.prog, Ok]

theorem ok_job (j : Job) (hq : j.Quiet) : Ok true [] j.prog := by
  cases j with
  | join => simp [Job.prog, Ok]
  | parse prep forg =>
    have h1 : ∀ (l : List Bool) r, Ok true [.status] r → Ok true [.status] (l.map Instr.prepare ++ r) := by
      intro l r hr; induction l with
      | nil => simpa using hr
      | cons a l ih => simpa [Ok] using ih
    have h2 : ∀ (l : List Bool) r, Ok true [.status] r → Ok true [.status] (l.map Instr.forget ++ r) := by
      intro l r hr; induction l with
      | nil => simpa using hr
      | cons a l ih => simpa [Ok] using ih
    simp only [Job.prog, Ok, List.append_assoc]
    refine ⟨by simp, by simp, h1 _ _ (h2 _ _ ?_)⟩
    split <;> simp [Ok]
  | assign act calls =>
    have hq : calls = 0 := hq
    subst hq
    have hb : Bal true [.prepping, .worker] (act.flatMap assignOne) := by
      refine bal_flatMap act fun a _ r hr => ?_
      cases a <;> simpa [assignOne, Ok, rank] using hr
    simp only [Job.prog, List.cons_append, List.nil_append, Ok]
    refine ⟨by simp, by simp, by simp [rank], by simp, hb _ ?_⟩
    simp [callback, Ok, rank]
  | revoke will calls =>
    obtain ⟨hw, hc⟩ : (∀ c ∈ will, c = (0, 0)) ∧ calls = 0 := hq
    subst hc
    have hb : Bal true [.worker] (will.flatMap revokeOne) := by
      refine bal_flatMap will fun a ha r hr => ?_
      rw [hw a ha]
      simpa [revokeOne, callback, Ok, rank] using hr
    simp only [Job.prog, List.cons_append, List.nil_append, Ok]
    refine ⟨by simp, by simp, hb _ ?_⟩
    simp [callback, Ok]

/-! ### The invariant -/

/-- What the counted goroutines do (`streams/source_consumer.go:177-188`). -/
def ForgetInstr (i : Instr) : Prop := (∃ l, i = .lock l ∧ l ≠ .worker ∧ l ≠ .status) ∨ ∃ l, i = .unlock l

theorem forget_instr (k : Bool) : ∀ i ∈ forgetProg k, ForgetInstr i := by
  cases k <;> simp [forgetProg, ForgetInstr]

/-- Who has which locks fits what they have left to do (`streams/source_consumer.go:139-242`). -/
structure Inv (s : St) (held : Option Nat → List Lock) : Prop where
  ok : ∀ who, Ok who.isNone (held who) (s.prog who)
  own : ∀ l who, s.own l = some who ↔ l ∈ held who
  cnt : ∀ t ∈ s.ts, t.counted = true → ∀ i ∈ t.prog, ForgetInstr i

theorem held_of_done {g : Bool} {h : List Lock} (hk : Ok g h []) : h = [] := hk

theorem prog_setProg {s : St} {who : Option Nat} (hw : s.prog who ≠ []) (r : List Instr) (w : Option Nat) :
    (s.setProg who r).prog w = if w = who then r else s.prog w := by
  cases who with
  | none => cases w <;> simp [St.setProg, St.prog]
  | some i =>
    have hi : i < s.ts.length := by
      by_contra hn
      apply hw
      simp [St.prog, List.getElem?_eq_none (Nat.le_of_not_lt hn)]
    cases w with
    | none => simp [St.setProg, St.prog]
    | some j =>
      by_cases hj : j = i
      · subst hj; simp [St.setProg, St.prog, hi]
      · simp [St.setProg, St.prog, hj, List.getElem?_set_ne (Ne.symm hj)]

theorem prog_append (s : St) (t : Thr) (own : Lock → Option (Option Nat)) (w : Option Nat) :
    (St.prog ⟨s.g, s.ts ++ [t], own⟩ w) = if w = some s.ts.length then t.prog else s.prog w := by
  cases w with
  | none => simp [St.prog]
  | some j =>
    by_cases hj : j = s.ts.length
    · subst hj; simp [St.prog]
    · rcases Nat.lt_or_gt_of_ne hj with h | h
      · simp [St.prog, hj, List.getElem?_append_left h]
      · simp [St.prog, hj, List.getElem?_eq_none (show s.ts.length ≤ j by omega),
          List.getElem?_eq_none (show (s.ts ++ [t]).length ≤ j by simp; omega)]

theorem cnt_setProg {s : St} {who : Option Nat} {i : Instr} {r : List Instr} (hp : s.prog who = i :: r)
    (hc : ∀ t ∈ s.ts, t.counted = true → ∀ i ∈ t.prog, ForgetInstr i) :
    ∀ t ∈ (s.setProg who r).ts, t.counted = true → ∀ i ∈ t.prog, ForgetInstr i := by
  cases who with
  | none => exact hc
  | some n =>
    intro t ht hct k hk
    rcases List.mem_or_eq_of_mem_set ht with h | h
    · exact hc t h hct k hk
    · subst h
      cases hn : s.ts[n]? with
      | none => simp [St.prog, hn] at hp
      | some u =>
        simp only [St.prog, hn, Option.map_some, Option.getD_some] at hp hct hk
        exact hc u (List.mem_of_getElem? hn) hct k (by rw [hp]; simp [hk])

theorem inv_append {s : St} {held : Option Nat → List Lock} (h : Inv s held) (t : Thr) (ht : Ok false [] t.prog)
    (hc : t.counted = true → ∀ i ∈ t.prog, ForgetInstr i) : Inv ⟨s.g, s.ts ++ [t], s.own⟩ held := by
  refine ⟨fun w => ?_, h.own, ?_⟩
  · rw [prog_append]
    split
    · next hw =>
      have h0 := h.ok w
      have : s.prog w = [] := by subst hw; simp [St.prog]
      rw [this] at h0
      rw [held_of_done h0, hw]
      exact ht
    · exact h.ok w
  · intro u hu
    rcases List.mem_append.1 hu with hu | hu
    · exact h.cnt u hu
    · simp only [List.mem_singleton] at hu; subst hu; exact hc

theorem inv_set {s : St} {held : Option Nat → List Lock} (h : Inv s held) {who : Option Nat} {i : Instr} {r : List Instr}
    (hp : s.prog who = i :: r) (hr : Ok who.isNone (held who) r) : Inv (s.setProg who r) held := by
  refine ⟨fun w => ?_, ?_, cnt_setProg hp h.cnt⟩
  · rw [prog_setProg (by simp [hp])]
    split
    · next hw => subst hw; exact hr
    · exact h.ok w
  · intro l w
    have : (s.setProg who r).own = s.own := by cases who <;> rfl
    rw [this]; exact h.own l w

theorem prog_own (s : St) (own : Lock → Option (Option Nat)) (w : Option Nat) : St.prog { s with own := own } w = s.prog w := by
  cases w <;> rfl

theorem inv_exec {s s' : St} {held : Option Nat → List Lock} (h : Inv s held) {who : Option Nat} {i : Instr} {r : List Instr}
    (hp : s.prog who = i :: r) (hs : exec s who r i = some s') : ∃ held', Inv s' held' := by
  have hk := h.ok who
  rw [hp] at hk
  cases i with
  | lock l =>
    simp only [exec] at hs
    split at hs
    · next hfree =>
      cases hs
      obtain ⟨h1, h2, h3⟩ := hk
      refine ⟨fun w => if w = who then l :: held who else held w, fun w => ?_, fun k w => ?_, cnt_setProg hp h.cnt⟩
      · rw [prog_own, prog_setProg (by simp [hp])]
        split
        · next hw => subst hw; exact h3
        · exact h.ok w
      · have hnone : ∀ w, l ∉ held w := fun w hw => by have := (h.own l w).2 hw; rw [hfree] at this; cases this
        simp only [setOwn]
        by_cases hkl : k = l
        · subst hkl
          by_cases hw : w = who
          · simp [hw]
          · simp [hw, hnone w, Ne.symm hw]
        · by_cases hw : w = who
          · subst hw; simp [hkl, h.own]
          · simp [hkl, hw, h.own]
    · cases hs
  | unlock l =>
    simp only [exec, Option.some.injEq] at hs
    subst hs
    obtain ⟨h1, h2⟩ := hk
    refine ⟨fun w => if w = who then (held who).filter (· ≠ l) else held w, fun w => ?_, fun k w => ?_, cnt_setProg hp h.cnt⟩
    · rw [prog_own, prog_setProg (by simp [hp])]
      split
      · next hw => subst hw; exact h2
      · exact h.ok w
    · have hme := (h.own l who).2 h1
      simp only [setOwn]
      by_cases hkl : k = l
      · subst hkl
        by_cases hw : w = who
        · simp [hw]
        · have : k ∉ held w := fun hm => by
            have := (h.own k w).2 hm
            rw [hme] at this
            exact hw (Option.some.inj this).symm
          simp [hw, this]
      · by_cases hw : w = who
        · subst hw; simp [hkl, h.own]
        · simp [hkl, hw, h.own]
  | prepare k =>
    simp only [exec, Option.some.injEq] at hs
    subst hs
    exact ⟨held, inv_append (inv_set h hp hk) _ (ok_prepare k) (by simp)⟩
  | forget k =>
    simp only [exec, Option.some.injEq] at hs
    subst hs
    exact ⟨held, inv_append (inv_set h hp hk) _ (ok_forget k) (fun _ => forget_instr k)⟩
  | synced =>
    simp only [exec, Option.some.injEq] at hs
    subst hs
    exact ⟨held, inv_append (inv_set h hp hk) _ ok_synced (by simp)⟩
  | wait =>
    simp only [exec] at hs
    split at hs
    · cases hs; exact ⟨held, inv_set h hp hk.2.2⟩
    · cases hs

theorem inv_step {s s' : St} {held : Option Nat → List Lock} (h : Inv s held) {l : Label} (hj : ∀ j, l = .job j → j.Quiet)
    (hs : step s l = some s') : ∃ held', Inv s' held' := by
  cases l with
  | run who =>
    simp only [step] at hs
    split at hs
    · cases hs
    · next i r hp => exact inv_exec h hp hs
  | job j =>
    simp only [step] at hs
    split at hs
    · next hg =>
      cases hs
      refine ⟨held, fun w => ?_, h.own, h.cnt⟩
      cases w with
      | none =>
        have h0 := h.ok none
        have hn : s.prog none = [] := hg
        rw [hn] at h0
        rw [held_of_done h0]
        exact ok_job j (hj j rfl)
      | some n => exact h.ok (some n)
    · cases hs
  | start f =>
    simp only [step, Option.some.injEq] at hs
    subst hs
    exact ⟨held, inv_append h _ (ok_free f) (by simp)⟩

theorem inv_reach {s : St} (h : Reach Job.Quiet s) : ∃ held, Inv s held := by
  induction h with
  | init =>
    refine ⟨fun _ => [], fun w => ?_, by simp [St.init], by simp [St.init]⟩
    cases w <;> simp [St.init, St.prog, Ok]
  | step _ hj hs ih => obtain ⟨held, hi⟩ := ih; exact inv_step hi hj hs

/-! ### Somebody can go on -/

/-- What a blocked goroutine is waiting for: a lock that somebody has, or the counted goroutines (`streams/incr_rebalancer.go:421`). -/
theorem blocked_cases {s : St} {held : Option Nat → List Lock} (h : Inv s held) {who : Option Nat} (hb : s.Blocked who) :
    (∃ l r w, s.prog who = .lock l :: r ∧ l ∈ held w) ∨
    (∃ r, s.prog who = .wait :: r ∧ ∃ n : Nat, ∃ t : Thr, s.ts[n]? = some t ∧ t.counted = true ∧ t.prog ≠ []) := by
  obtain ⟨hne, hs⟩ := hb
  simp only [step] at hs
  split at hs
  · next hp => exact absurd hp hne
  · next i r hp =>
    cases i with
    | lock l =>
      simp only [exec] at hs
      split at hs
      · cases hs
      · next hf =>
        cases ho : s.own l with
        | none => exact absurd ho hf
        | some w => exact Or.inl ⟨l, r, w, hp, (h.own l w).1 ho⟩
    | wait =>
      simp only [exec] at hs
      split at hs
      · cases hs
      · next hf =>
        right
        refine ⟨r, hp, ?_⟩
        simp only [List.all_eq_true, not_forall] at hf
        obtain ⟨t, ht, hn⟩ := hf
        obtain ⟨n, hn'⟩ := List.mem_iff_getElem?.1 ht
        refine ⟨n, t, hn', ?_⟩
        simpa using hn
    | unlock l => simp [exec] at hs
    | prepare k => simp [exec] at hs
    | forget k => simp [exec] at hs
    | synced => simp [exec] at hs

theorem not_all_blocked {s : St} {held : Option Nat → List Lock} (h : Inv s held) (hidle : ¬ s.Idle) :
    ∃ who, s.prog who ≠ [] ∧ step s (.run who) ≠ none := by
  by_contra hcon
  have hall : ∀ who, s.prog who ≠ [] → s.Blocked who := fun who hw => ⟨hw, by
    by_contra hn; exact hcon ⟨who, hw, hn⟩⟩
  -- who has a lock has something left to do
  have hbusy : ∀ l w, l ∈ held w → s.prog w ≠ [] := fun l w hl hp => by
    have := h.ok w; rw [hp] at this; rw [held_of_done this] at hl; cases hl
  -- going up the ranks: nobody is waiting for a lock that ranks above `statusLock`
  have hup : ∀ k, ∀ l who r, 5 - rank l = k → 2 < rank l → s.prog who = .lock l :: r → False := by
    intro k
    induction k using Nat.strongRecOn with
    | _ k ih =>
      intro l who r hk hl hp
      rcases blocked_cases h (hall who (by simp [hp])) with ⟨l', r', w, hp', hw⟩ | ⟨r', hp', _⟩
      · rw [hp] at hp'; cases hp'
        have hok := h.ok w
        rcases blocked_cases h (hall w (hbusy _ _ hw)) with ⟨l2, r2, w2, hp2, _⟩ | ⟨r2, hp2, _⟩
        · rw [hp2] at hok
          have hlt := hok.1 l hw
          have : rank l2 ≤ 4 := by cases l2 <;> simp [rank]
          exact ih (5 - rank l2) (by omega) l2 w r2 rfl (by omega) hp2
        · rw [hp2] at hok
          rw [hok.2.1] at hw
          simp only [List.mem_singleton] at hw
          subst hw; simp [rank] at hl
      · rw [hp] at hp'; cases hp'
  -- the group goroutine does not wait for the counted goroutines
  have hwait : ∀ who r, s.prog who ≠ .wait :: r := by
    intro who r hp
    have hok := h.ok who
    rw [hp] at hok
    have hst : held who = [.status] := hok.2.1
    have hwn : who = none := by cases who with | none => rfl | some _ => exact absurd hok.1 (by simp)
    rcases blocked_cases h (hall who (by simp [hp])) with ⟨l', r', w, hp', _⟩ | ⟨r', _, n, t, hn, hct, htp⟩
    · rw [hp] at hp'; cases hp'
    · have hpt : s.prog (some n) = t.prog := by simp [St.prog, hn]
      have hf := h.cnt t (List.mem_of_getElem? hn) hct
      rcases blocked_cases h (hall (some n) (by rw [hpt]; exact htp)) with ⟨l, r2, w, hp2, hw⟩ | ⟨r2, hp2, _⟩
      · have : ForgetInstr (.lock l) := hf _ (by rw [← hpt, hp2]; simp)
        have hl : l ≠ .worker ∧ l ≠ .status := by
          rcases this with ⟨l', he, h1, h2⟩ | ⟨l', he⟩
          · cases he; exact ⟨h1, h2⟩
          · cases he
        cases l with
        | worker => exact hl.1 rfl
        | status => exact hl.2 rfl
        | stores => exact hup _ _ _ _ rfl (by simp [rank]) hp2
        | consumer => exact hup _ _ _ _ rfl (by simp [rank]) hp2
        | prepping =>
          have hwne : w ≠ none := fun he => by
            rw [he, ← hwn, hst] at hw; simp at hw
          have hokw := h.ok w
          rcases blocked_cases h (hall w (hbusy _ _ hw)) with ⟨l3, r3, w3, hp3, _⟩ | ⟨r3, hp3, _⟩
          · rw [hp3] at hokw
            have hlt := hokw.1 _ hw
            have hns : l3 ≠ .status := fun he => by
              rcases hokw.2.1 with hg | hg
              · cases w with
                | none => exact hwne rfl
                | some _ => exact absurd hg (by simp)
              · exact hg ⟨hw, he⟩
            cases l3 with
            | worker => simp [rank] at hlt
            | prepping => simp [rank] at hlt
            | status => exact hns rfl
            | stores => exact hup _ _ _ _ rfl (by simp [rank]) hp3
            | consumer => exact hup _ _ _ _ rfl (by simp [rank]) hp3
          · rw [hp3] at hokw
            cases w with
            | none => exact hwne rfl
            | some _ => exact absurd hokw.1 (by simp)
      · have : ForgetInstr .wait := hf _ (by rw [← hpt, hp2]; simp)
        rcases this with ⟨_, he, _⟩ | ⟨_, he⟩ <;> cases he
  -- so nobody is waiting for any lock
  have hlock : ∀ k, ∀ l who r, 5 - rank l = k → s.prog who = .lock l :: r → False := by
    intro k
    induction k using Nat.strongRecOn with
    | _ k ih =>
      intro l who r hk hp
      rcases blocked_cases h (hall who (by simp [hp])) with ⟨l', r', w, hp', hw⟩ | ⟨r', hp', _⟩
      · rw [hp] at hp'; cases hp'
        have hok := h.ok w
        rcases blocked_cases h (hall w (hbusy _ _ hw)) with ⟨l2, r2, w2, hp2, _⟩ | ⟨r2, hp2, _⟩
        · rw [hp2] at hok
          have hlt := hok.1 l hw
          have : rank l2 ≤ 4 := by cases l2 <;> simp [rank]
          exact ih (5 - rank l2) (by omega) l2 w r2 rfl hp2
        · exact hwait _ _ hp2
      · rw [hp] at hp'; cases hp'
  apply hidle
  intro who
  by_contra hw
  rcases blocked_cases h (hall who hw) with ⟨l, r, _, hp, _⟩ | ⟨r, hp, _⟩
  · exact hlock _ _ _ _ rfl hp
  · exact hwait _ _ hp

/-! ### The work that is left -/

theorem costs_prepare (k : Bool) : cost (.prepare k) = 1 + costs (prepareProg k) := by cases k <;> rfl

theorem costs_forget (k : Bool) : cost (.forget k) = 1 + costs (forgetProg k) := by cases k <;> rfl

theorem costs_synced : cost .synced = 1 + costs syncedProg := rfl

theorem cost_pos (i : Instr) : 0 < cost i := by cases i <;> simp [cost] <;> split <;> omega

theorem sum_set {l : List Thr} {n : Nat} {t u : Thr} (h : l[n]? = some t) :
    ((l.set n u).map fun t => costs t.prog).sum + costs t.prog = (l.map fun t => costs t.prog).sum + costs u.prog := by
  induction l generalizing n with
  | nil => simp at h
  | cons a l ih =>
    cases n with
    | zero => simp at h; subst h; simp; omega
    | succ n =>
      simp only [List.getElem?_cons_succ] at h
      have := ih h
      simp only [List.set_cons_succ, List.map_cons, List.sum_cons]; omega

theorem left_setProg {s : St} {who : Option Nat} {i : Instr} {r : List Instr} (hp : s.prog who = i :: r) :
    (s.setProg who r).left + cost i = s.left := by
  cases who with
  | none =>
    have : s.g = i :: r := hp
    simp only [St.setProg, St.left, this, costs, List.map_cons, List.sum_cons]; omega
  | some n =>
    cases hn : s.ts[n]? with
    | none => simp [St.prog, hn] at hp
    | some t =>
      have ht : t.prog = i :: r := by simpa [St.prog, hn] using hp
      have := sum_set (u := ⟨r, ((s.ts[n]?).map Thr.counted).getD false⟩) hn
      rw [ht] at this
      simp only [St.setProg, St.left]
      simp only [costs, List.map_cons, List.sum_cons] at this ⊢
      omega

theorem left_append (s : St) (t : Thr) (own : Lock → Option (Option Nat)) : St.left ⟨s.g, s.ts ++ [t], own⟩ = s.left + costs t.prog := by
  simp [St.left]; omega

theorem left_run {s s' : St} {who : Option Nat} (hs : step s (.run who) = some s') : s'.left + 1 = s.left := by
  simp only [step] at hs
  split at hs
  · cases hs
  · next i r hp =>
    have hl := left_setProg hp
    cases i with
    | lock l =>
      simp only [exec] at hs
      split at hs
      · cases hs; simpa [St.left, cost] using hl
      · cases hs
    | unlock l => simp only [exec, Option.some.injEq] at hs; subst hs; simpa [St.left, cost] using hl
    | wait =>
      simp only [exec] at hs
      split at hs
      · cases hs; simpa [cost] using hl
      · cases hs
    | prepare k =>
      simp only [exec, Option.some.injEq] at hs; subst hs
      rw [left_append]; rw [costs_prepare] at hl; dsimp only; omega
    | forget k =>
      simp only [exec, Option.some.injEq] at hs; subst hs
      rw [left_append]; rw [costs_forget] at hl; dsimp only; omega
    | synced =>
      simp only [exec, Option.some.injEq] at hs; subst hs
      rw [left_append]; rw [costs_synced] at hl; dsimp only; omega

theorem idle_of_left {s : St} (h : s.left = 0) : s.Idle := by
  intro who
  by_contra hw
  cases hp : s.prog who with
  | nil => exact hw hp
  | cons i r =>
    have := left_setProg hp
    have := cost_pos i
    omega

/-- Goroutines going on, one instruction at a time (`streams/source_consumer.go:139-251`). -/
def goOn (s : St) (whos : List (Option Nat)) : Option St := run s (whos.map Label.run)

theorem left_goOn {s s' : St} {whos : List (Option Nat)} (h : goOn s whos = some s') : s'.left + whos.length = s.left := by
  induction whos generalizing s with
  | nil => simp [goOn, run] at h; subst h; simp
  | cons w ws ih =>
    simp only [goOn, List.map_cons, run] at h
    cases h1 : step s (.run w) with
    | none => rw [h1] at h; simp at h
    | some s1 =>
      rw [h1] at h
      have := ih (s := s1) h
      have := left_run h1
      simp; omega

theorem reach_run {P : Job → Prop} {s s' : St} (h : Reach P s) {who : Option Nat} (hs : step s (.run who) = some s') : Reach P s' :=
  .step h (by intro j hj; cases hj) hs

theorem reach_goOn {P : Job → Prop} {s s' : St} (h : Reach P s) {whos : List (Option Nat)} (hs : goOn s whos = some s') : Reach P s' := by
  induction whos generalizing s with
  | nil => simp [goOn, run] at hs; subst hs; exact h
  | cons w ws ih =>
    simp only [goOn, List.map_cons, run] at hs
    cases h1 : step s (.run w) with
    | none => rw [h1] at hs; simp at hs
    | some s1 => rw [h1] at hs; exact ih (reach_run h h1) hs

theorem own_of_idle {s : St} {held : Option Nat → List Lock} (h : Inv s held) (hi : s.Idle) (l : Lock) : s.own l = none := by
  cases ho : s.own l with
  | none => rfl
  | some w =>
    have hw := (h.own l w).1 ho
    have := h.ok w
    rw [hi w] at this
    rw [held_of_done this] at hw
    cases hw

end Verif.Locks
