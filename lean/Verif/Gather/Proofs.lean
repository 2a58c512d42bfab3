import Verif.Gather.Model
import Verif.Batcher.Progress
/-
Workers and an `AsyncBatcher`: where every event is, and that nothing is left when nothing goes on.
-/
namespace Verif.Gather
open Verif.Batcher (Batch Item State Label upd upd_self upd_ne Full)

set_option linter.unusedSectionVars false

variable {K : Type} [DecidableEq K]

/-! ### Steps of the batcher -/

theorem internal_same {s s' : State K} {l : Label K} (hl : l.internal = true) (h : Batcher.step s l = some s') : s'.adders = s.adders ∧ s'.batches = s.batches := by
  cases l with
  | call t b => simp [Label.internal] at hl
  | add t => simp [Label.internal] at hl
  | fire i =>
    simp only [Batcher.step] at h
    split at h
    · simp only [Option.some.injEq] at h; subst h; exact ⟨rfl, rfl⟩
    · simp at h
  | flush i =>
    simp only [Batcher.step] at h
    split at h
    · simp at h
    · rename_i m hm
      simp only [Option.some.injEq] at h
      have := Batcher.same_condExec (s.setE i { s.execs i with late := m }) i
      rw [h] at this
      exact ⟨this.adders, this.batches⟩
  | go i j =>
    simp only [Batcher.step, Option.map_eq_some_iff] at h
    obtain ⟨p, hp, hs⟩ := h
    cases p with
    | queued => simp only [Batcher.goStep] at hs; split at hs <;> subst hs <;> exact ⟨rfl, rfl⟩
    | running => simp only [Batcher.goStep] at hs; subst hs; exact ⟨rfl, rfl⟩
    | completing r => cases r <;> simp only [Batcher.goStep] at hs <;> subst hs <;> exact ⟨rfl, rfl⟩
    | nooping r =>
      cases r with
      | nil =>
        simp only [Batcher.goStep] at hs
        have := Batcher.same_finish s i j
        rw [hs] at this
        exact ⟨this.adders, this.batches⟩
      | cons x r => simp only [Batcher.goStep] at hs; subst hs; exact ⟨rfl, rfl⟩

theorem timer_called {s s' : State K} {l : Label K} (hl : (∃ i, l = .fire i) ∨ ∃ i, l = .flush i) (h : Batcher.step s l = some s') : s'.called = s.called := by
  rcases hl with ⟨i, rfl⟩ | ⟨i, rfl⟩
  · simp only [Batcher.step] at h
    split at h
    · simp only [Option.some.injEq] at h; subst h; rfl
    · simp at h
  · simp only [Batcher.step] at h
    split at h
    · simp at h
    · rename_i m hm
      simp only [Option.some.injEq] at h
      have := Batcher.same_condExec (s.setE i { s.execs i with late := m }) i
      rw [h] at this
      exact this.called

theorem call_is {s s' : State K} {t : Nat} {B : Batch K} (h : Batcher.step s (.call t B) = some s') :
    s.adders t = [] ∧ s.batches B.id = none ∧ s' = { s with adders := upd s.adders t B.itemsToAdd, batches := upd s.batches B.id (some B) } := by
  simp only [Batcher.step] at h
  split at h
  · rename_i hc
    simp only [Option.some.injEq] at h
    exact ⟨hc.1, hc.2, h.symm⟩
  · simp at h

theorem add_is {s s' : State K} {t : Nat} (h : Batcher.step s (.add t) = some s') :
    ∃ x r, s.adders t = x :: r ∧ s' = Batcher.addOne { s with adders := upd s.adders t r } x := by
  simp only [Batcher.step] at h
  split at h
  · simp at h
  · rename_i x r hx
    simp only [Option.some.injEq] at h
    exact ⟨x, r, hx, h.symm⟩

/-! ### Where every event is -/

/-- 1 if the event is inside the batcher. -/
def inside (b : State K) (e : Nat) : Nat := if (b.batches e).isSome ∧ e ∉ b.called then 1 else 0

/-- How often an event is somewhere in the system. -/
def copies (s : Sys K) (e : Nat) : Nat :=
  ((s.evq (s.part e)).map (·.id)).count e + inside s.b e + (s.jobs (s.part e)).count e + s.done.count e

structure Inv (c : Cfg) (s : Sys K) : Prop where
  full : Full s.b
  num : s.b.n = c.concurrent
  evq : ∀ p, ∀ B ∈ s.evq p, s.part B.id = p ∧ B.id < s.next ∧ s.b.batches B.id = none
  jobs : ∀ p, ∀ e ∈ s.jobs p, s.part e = p
  one : ∀ e, copies s e = if e < s.next then 1 else 0
  known : ∀ e, (s.b.batches e).isSome → e < s.next
  slot : ∀ p, s.slots p + s.done.countP (fun e => s.part e = p) = (List.range s.next).countP fun e => s.part e = p
  cap : ∀ p, s.slots p ≤ c.maxPending

theorem inv_init (c : Cfg) (hm : 1 ≤ c.batchSize) : Inv (K := K) c (Sys.init c) := by
  refine ⟨Batcher.full_init _ _ hm, rfl, ?_, ?_, ?_, ?_, ?_, ?_⟩ <;> simp [Sys.init, copies, inside, Batcher.init]

/-- What is done, waits or is inside is known. -/
theorem Inv.lt {c : Cfg} {s : Sys K} (I : Inv c s) {e : Nat} (h : e ∈ s.done ∨ ∃ p, e ∈ s.jobs p) : e < s.next := by
  have h1 := I.one e
  by_contra hc
  rw [if_neg hc] at h1
  unfold copies at h1
  rcases h with h | ⟨p, h⟩
  · have := List.count_pos_iff.2 h; omega
  · have hp := I.jobs p e h
    subst hp
    have := List.count_pos_iff.2 h; omega

theorem called_known {b : State K} (F : Full b) {e : Nat} (h : e ∈ b.called) : (b.batches e).isSome := by
  obtain ⟨B, hB, _⟩ := (F.acc.callback e).1 h
  rw [hB]; rfl

theorem inv_b {c : Cfg} {s : Sys K} (I : Inv c s) {l : Label K} {b' : State K} (h : Batcher.step s.b l = some b') (hb : b'.batches = s.b.batches) (hc : b'.called = s.b.called) :
    Inv c { s with b := b' } := by
  refine ⟨Batcher.full_step I.full h, (Batcher.fixed_step h).1.trans I.num, ?_, I.jobs, ?_, ?_, I.slot, I.cap⟩
  · intro p B hB; dsimp only; rw [hb]; exact I.evq p B hB
  · intro e
    have := I.one e
    simp only [copies, inside] at this ⊢
    rw [hb, hc]; exact this
  · dsimp only; rw [hb]; exact I.known

theorem countP_congr' {l : List Nat} {p q : Nat → Bool} (h : ∀ x ∈ l, p x = q x) : l.countP p = l.countP q := by
  induction l with
  | nil => rfl
  | cons x l ih => rw [List.countP_cons, List.countP_cons, ih fun y hy => h y (List.mem_cons_of_mem _ hy), h x (by simp)]

theorem inv_step {c : Cfg} {s s' : Sys K} {a : Act K} (I : Inv c s) (h : step c s a = some s') : Inv c s' := by
  cases a with
  | arrive p key keys =>
    simp only [step] at h
    split at h
    · rename_i hroom
      simp only [Option.some.injEq] at h; subst h
      have hpart : ∀ e, e < s.next → upd s.part s.next p e = s.part e := fun e he => upd_ne _ _ (by omega)
      have hj : ∀ q, s.next ∉ s.jobs q := fun q hq => by have := I.lt (.inr ⟨q, hq⟩); omega
      have hd : s.next ∉ s.done := fun hq => by have := I.lt (.inl hq); omega
      refine ⟨I.full, I.num, ?_, ?_, ?_, ?_, ?_, ?_⟩
      · intro q B hB
        dsimp only at hB ⊢
        by_cases hq : q = p
        · subst hq; rw [upd_self, List.mem_append, List.mem_singleton] at hB
          rcases hB with hB | rfl
          · obtain ⟨h1, h2, h3⟩ := I.evq q B hB
            rw [hpart _ h2]; exact ⟨h1, by omega, h3⟩
          · refine ⟨upd_self _ _ _, by dsimp only; omega, ?_⟩
            cases hb : s.b.batches s.next with
            | none => rfl
            | some B => have := I.known s.next (by rw [hb]; rfl); omega
        · rw [upd_ne _ _ hq] at hB
          obtain ⟨h1, h2, h3⟩ := I.evq q B hB
          rw [hpart _ h2]; exact ⟨h1, by omega, h3⟩
      · intro q e he
        have := I.lt (.inr ⟨q, he⟩)
        dsimp only; rw [hpart e this]; exact I.jobs q e he
      · intro e
        have h1 := I.one e
        simp only [copies] at h1 ⊢
        by_cases he : e = s.next
        · subst he
          rw [if_neg (by omega)] at h1
          rw [if_pos (by omega), upd_self, upd_self, List.map_append, List.count_append]
          have e1 : ((s.evq p).map (·.id)).count s.next = 0 := by
            rw [List.count_eq_zero]
            intro hc
            obtain ⟨B, hB, hid⟩ := List.mem_map.1 hc
            have := (I.evq p B hB).2.1
            omega
          have e2 : (s.jobs p).count s.next = 0 := List.count_eq_zero.2 (hj p)
          have e3 : s.done.count s.next = 0 := List.count_eq_zero.2 hd
          rw [e1, e2, e3]
          simp
          omega
        · have : upd s.part s.next p e = s.part e := upd_ne _ _ he
          rw [this]
          have hev : ((upd s.evq p (s.evq p ++ [⟨s.next, key, keys⟩]) (s.part e)).map (·.id)).count e = ((s.evq (s.part e)).map (·.id)).count e := by
            by_cases hq : s.part e = p
            · rw [hq, upd_self, List.map_append, List.count_append]
              simp [Ne.symm he]
            · rw [upd_ne _ _ hq]
          rw [hev, h1]
          by_cases hlt : e < s.next
          · rw [if_pos hlt, if_pos (by omega)]
          · rw [if_neg hlt, if_neg (by omega)]
      · intro e he; have := I.known e he; dsimp only; omega
      · intro q
        have h1 := I.slot q
        dsimp only
        rw [List.range_succ, List.countP_append, countP_congr' (l := s.done) (q := fun e => s.part e = q) fun e he => by simp only [hpart e (I.lt (.inl he))],
          countP_congr' (l := List.range s.next) (q := fun e => s.part e = q) fun e he => by simp only [hpart e (List.mem_range.1 he)]]
        by_cases hq : q = p
        · subst hq; simp; omega
        · rw [upd_ne _ _ hq]; simp [Ne.symm hq]; exact h1
      · intro q
        have := I.cap q
        dsimp only
        by_cases hq : q = p
        · subst hq; rw [upd_self]; omega
        · rw [upd_ne _ _ hq]; exact this
    · simp at h
  | handle p =>
    simp only [step] at h
    split at h
    · rename_i B rest hev
      simp only [Option.map_eq_some_iff] at h
      obtain ⟨b', hb, rfl⟩ := h
      have hF := Batcher.full_step I.full hb
      have hn := (Batcher.fixed_step hb).1
      obtain ⟨c1, c2, rfl⟩ := call_is hb
      have hB := I.evq p B (by rw [hev]; simp)
      have hnc : B.id ∉ s.b.called := fun hc => by have := called_known I.full hc; rw [c2] at this; simp at this
      have hnd : ((s.evq p).map (·.id)).count B.id ≤ 1 := by
        have := I.one B.id
        rw [if_pos hB.2.1, copies, hB.1] at this
        omega
      refine ⟨hF, hn.trans I.num, ?_, I.jobs, ?_, ?_, I.slot, I.cap⟩
      · intro q D hD
        dsimp only at hD ⊢
        have hD' : D ∈ s.evq q ∧ D.id ≠ B.id := by
          by_cases hq : q = p
          · subst hq
            rw [upd_self] at hD
            refine ⟨by rw [hev]; exact List.mem_cons_of_mem _ hD, fun hid => ?_⟩
            rw [hev, List.map_cons, List.count_cons] at hnd
            have : 0 < (rest.map (·.id)).count B.id := List.count_pos_iff.2 (List.mem_map.2 ⟨D, hD, hid⟩)
            simp only [beq_self_eq_true, if_true] at hnd
            omega
          · rw [upd_ne _ _ hq] at hD
            refine ⟨hD, fun hid => hq ?_⟩
            rw [← (I.evq q D hD).1, hid, hB.1]
        rw [upd_ne _ _ hD'.2]
        exact I.evq q D hD'.1
      · intro e
        have h1 := I.one e
        rw [← h1]
        simp only [copies, inside]
        by_cases he : e = B.id
        · subst he
          simp only [hB.1, upd_self, hev, c2]
          simp [hnc]
        · simp only [upd_ne _ _ he]
          by_cases hq : s.part e = p
          · rw [hq, upd_self, hev]
            simp [Ne.symm he]
          · rw [upd_ne _ _ hq]
      · intro e he
        dsimp only at he ⊢
        by_cases heq : e = B.id
        · rw [heq]; exact hB.2.1
        · rw [upd_ne _ _ heq] at he; exact I.known e he
    · simp at h
  | add p =>
    simp only [step, Option.map_eq_some_iff] at h
    obtain ⟨b', hb, rfl⟩ := h
    obtain ⟨x, r, _, he⟩ := add_is hb
    have hf := Batcher.addOne_fields { s.b with adders := upd s.b.adders p r } x
    rw [← he] at hf
    exact inv_b I hb hf.2.1 hf.2.2.2.2.2
  | fire i =>
    simp only [step, Option.map_eq_some_iff] at h
    obtain ⟨b', hb, rfl⟩ := h
    exact inv_b I hb (internal_same rfl hb).2 (timer_called (.inl ⟨i, rfl⟩) hb)
  | flush i =>
    simp only [step, Option.map_eq_some_iff] at h
    obtain ⟨b', hb, rfl⟩ := h
    exact inv_b I hb (internal_same rfl hb).2 (timer_called (.inr ⟨i, rfl⟩) hb)
  | go i j =>
    simp only [step] at h
    split at h
    · simp at h
    · rename_i b' hb
      have hsame := internal_same rfl hb
      rcases (Batcher.grow_step hb).2 with hc | ⟨e, hc⟩
      · rw [hc, List.drop_length] at h
        simp only [Option.some.injEq] at h; subst h
        exact inv_b I hb hsame.2 hc
      · rw [hc, List.drop_left] at h
        simp only at h
        split at h
        · simp only [Option.some.injEq] at h; subst h
          have hF := Batcher.full_step I.full hb
          have hnew : e ∉ s.b.called := by
            have := hF.acc.once
            rw [hc, List.nodup_append] at this
            exact fun hin => this.2.2 e hin e (by simp) rfl
          have hsome : (s.b.batches e).isSome := by rw [← hsame.2]; exact called_known hF (by rw [hc]; simp)
          refine ⟨hF, (Batcher.fixed_step hb).1.trans I.num, ?_, ?_, ?_, ?_, I.slot, I.cap⟩
          · intro p B hB; dsimp only; rw [hsame.2]; exact I.evq p B hB
          · intro p f hf
            dsimp only at hf ⊢
            by_cases hp : p = s.part e
            · subst hp; rw [upd_self, List.mem_append, List.mem_singleton] at hf
              rcases hf with hf | rfl
              · exact I.jobs _ f hf
              · rfl
            · rw [upd_ne _ _ hp] at hf; exact I.jobs p f hf
          · intro f
            rw [← I.one f]
            simp only [copies, inside, hsame.2, hc]
            by_cases hf : f = e
            · subst hf
              rw [upd_self, List.count_append]
              simp [hsome, hnew]
              omega
            · have hin : (f ∉ s.b.called ++ [e]) = (f ∉ s.b.called) := by simp [hf]
              simp only [hin]
              by_cases hp : s.part f = s.part e
              · rw [hp, upd_self, List.count_append]
                have : [e].count f = 0 := by rw [List.count_eq_zero]; simpa using hf
                omega
              · rw [upd_ne _ _ hp]
          · dsimp only; rw [hsame.2]; exact I.known
        · simp at h
  | job p =>
    simp only [step] at h
    split at h
    · rename_i e rest ha hj
      simp only [Option.some.injEq] at h; subst h
      have hp : s.part e = p := I.jobs p e (by rw [hj]; simp)
      have hone : ∀ f, copies { s with jobs := upd s.jobs p rest, slots := upd s.slots p (s.slots p - 1), done := s.done ++ [e] } f = copies s f := by
        intro f
        simp only [copies, List.count_append]
        by_cases hq : s.part f = p
        · rw [hq, upd_self, hj, List.count_cons, List.count_cons, List.count_nil]; omega
        · rw [upd_ne _ _ hq]
          have : [e].count f = 0 := by
            rw [List.count_eq_zero]; intro hc; simp only [List.mem_singleton] at hc; subst hc; exact hq hp
          omega
      have hge : 1 ≤ s.slots p := by
        have hsub : (s.done ++ [e]).Subperm (List.range s.next) := by
          rw [List.subperm_ext_iff]
          intro f hf
          have h1 := I.one f
          rw [← hone f] at h1
          simp only [copies] at h1
          have : 1 ≤ (List.range s.next).count f := by
            rw [List.one_le_count_iff, List.mem_range]
            by_contra hc
            rw [if_neg hc] at h1
            have := List.count_pos_iff.2 hf
            omega
          by_cases hlt : f < s.next
          · rw [if_pos hlt] at h1; omega
          · rw [if_neg hlt] at h1; omega
        have h2 := hsub.countP_le (fun f => s.part f = p)
        have h3 := I.slot p
        rw [List.countP_append] at h2
        simp [hp] at h2
        omega
      refine ⟨I.full, I.num, I.evq, ?_, fun f => by rw [hone f]; exact I.one f, I.known, ?_, ?_⟩
      · intro q f hf
        dsimp only at hf ⊢
        by_cases hq : q = p
        · subst hq; rw [upd_self] at hf; exact I.jobs q f (by rw [hj]; exact List.mem_cons_of_mem _ hf)
        · rw [upd_ne _ _ hq] at hf; exact I.jobs q f hf
      · intro q
        have := I.slot q
        dsimp only
        rw [List.countP_append]
        by_cases hq : q = p
        · subst hq; rw [upd_self]; simp [hp]; omega
        · rw [upd_ne _ _ hq]
          have : [e].countP (fun f => s.part f = q) = 0 := by simp [hp, Ne.symm hq]
          omega
      · intro q
        have := I.cap q
        dsimp only
        by_cases hq : q = p
        · subst hq; rw [upd_self]; omega
        · rw [upd_ne _ _ hq]; exact this
    · simp at h

theorem inv_run {c : Cfg} {as : List (Act K)} {s s' : Sys K} (I : Inv c s) (h : run c s as = some s') : Inv c s' := by
  induction as generalizing s with
  | nil => simp only [run, Option.some.injEq] at h; subst h; exact I
  | cons a as ih =>
    simp only [run, Option.bind_eq_some_iff] at h
    obtain ⟨s1, e1, e2⟩ := h
    exact ih (inv_step I e1) e2

theorem inv_reach {c : Cfg} (hm : 1 ≤ c.batchSize) {s : Sys K} (h : Reach c s) : Inv c s := by
  obtain ⟨as, h⟩ := h
  exact inv_run (inv_init c hm) h

theorem asyncSize_pos (c : Cfg) : 1 ≤ c.asyncSize := by
  show 1 ≤ max (c.maxBatch / 10) 100 * 4
  omega

/-! ### At rest -/

theorem quiet {c : Cfg} {s : Sys K} (I : Inv c s) (hn : 1 ≤ c.concurrent) (hend : ∀ a, (∀ p k ks, a ≠ .arrive p k ks) → step c s a = none) :
    (∀ p, s.evq p = [] ∧ s.b.adders p = [] ∧ s.jobs p = []) ∧ (∀ e, inside s.b e = 0) := by
  have hadd : ∀ p, s.b.adders p = [] := by
    intro p
    cases e : s.b.adders p with
    | nil => rfl
    | cons x r =>
      have h := hend (.add p) (by simp)
      simp [step, Batcher.step, e] at h
  have hev : ∀ p, s.evq p = [] := by
    intro p
    cases e : s.evq p with
    | nil => rfl
    | cons B r =>
      have h := hend (.handle p) (by simp)
      simp [step, Batcher.step, e, hadd p, (I.evq p B (by rw [e]; simp)).2.2] at h
  have hjobs : ∀ p, s.jobs p = [] := by
    intro p
    cases e : s.jobs p with
    | nil => rfl
    | cons x r =>
      have h := hend (.job p) (by simp)
      simp [step, e, hadd p] at h
  have hA := asyncSize_pos c
  have hq : ∀ l : Label K, l.internal = true → Batcher.step s.b l = none := by
    intro l hl
    cases l with
    | call t b => simp [Label.internal] at hl
    | add t => simp [Label.internal] at hl
    | fire i => have h := hend (.fire i) (by simp); simpa [step] using h
    | flush i => have h := hend (.flush i) (by simp); simpa [step] using h
    | go i j =>
      have h := hend (.go i j) (by simp)
      cases hb : Batcher.step s.b (.go i j) with
      | none => rfl
      | some b' =>
        simp only [step, hb] at h
        split at h
        · simp at h
        · rw [if_pos (by rw [hjobs]; simp; omega)] at h; simp at h
  refine ⟨fun p => ⟨hev p, hadd p, hjobs p⟩, fun e => ?_⟩
  unfold inside
  split
  · rename_i hc
    exfalso
    obtain ⟨B, hB⟩ := Option.isSome_iff_exists.1 hc.1
    apply hc.2
    rw [I.full.acc.callback]
    refine ⟨B, hB, fun x hx => Batcher.quiet_done I.full.good (by rw [I.num]; exact hn) hq x ?_⟩
    rcases I.full.acc.all e B hB x hx with h | ⟨t, h⟩
    · exact h
    · rw [hadd t] at h; simp at h
  · rfl

end Verif.Gather
