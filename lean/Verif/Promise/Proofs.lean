import Verif.Promise.Model
import Verif.Scheduler.View
import Mathlib.Tactic.Common
import Mathlib.Data.List.Basic
/-
Invariants of the workers with a `BatchProducer`.
-/
set_option linter.unusedSimpArgs false
namespace Verif.Promise
open Verif.Scheduler (upd upd_self upd_ne)

/-- The records which the loop of the event's handler has not yet given to the client. -/
def left (s : Sys) (e : Ev) : Nat :=
  match s.ph e.part with
  | .producing f l => if f = e then l else 0
  | .idle => 0

/-- The events of a partition. -/
def of (p : Nat) (bs : List (Ev × Nat)) : Nat := bs.countP fun b => b.1.part = p

/-- 1 if the running promise belongs to the partition. -/
def here (p : Nat) : Option Ev → Nat
  | some e => if e.part = p then 1 else 0
  | none => 0

structure Inv (c : Cfg) (s : Sys) : Prop where
  keys : (s.batches.map Prod.fst).Nodup
  pend : ∀ b ∈ s.batches, b.2 = s.buf.count b.1 + left s b.1 ∧ 1 ≤ b.2
  bufIn : ∀ e ∈ s.buf, e ∈ s.batches.map Prod.fst
  phIn : ∀ p e l, s.ph p = .producing e l → e.part = p ∧ 1 ≤ l ∧ e ∈ s.batches.map Prod.fst
  mine : ∀ p, ∀ e ∈ s.evq p, e.part = p ∧ e.id < s.next ∧ 1 ≤ e.recs ∧ e ∉ s.batches.map Prod.fst
  line : ∀ p, (s.evq p).Nodup
  old : ∀ e ∈ s.batches.map Prod.fst, e.id < s.next
  count : ∀ p, s.slots p = (s.evq p).length + of p s.batches + here p s.posting + (s.jobs p).length
  cap : ∀ p, s.slots p ≤ c.maxPending

theorem inv_init (c : Cfg) : Inv c Sys.init := by
  constructor <;> simp [Sys.init, of, here]

theorem pending_mem {e : Ev} {bs : List (Ev × Nat)} {n : Nat} (h : pending e bs = some n) : (e, n) ∈ bs := by
  unfold pending at h
  simp only [Option.map_eq_some_iff] at h
  obtain ⟨b, hb, rfl⟩ := h
  have h1 := List.mem_of_find?_eq_some hb
  have h2 := List.find?_some hb
  simp only [decide_eq_true_eq] at h2
  subst h2
  exact h1

theorem pending_of {e : Ev} {bs : List (Ev × Nat)} (h : e ∈ bs.map Prod.fst) : ∃ n, pending e bs = some n := by
  unfold pending
  obtain ⟨b, hb, rfl⟩ := List.mem_map.1 h
  cases hf : bs.find? (fun b' => b'.1 = b.1) with
  | some x => exact ⟨x.2, rfl⟩
  | none =>
    rw [List.find?_eq_none] at hf
    exact absurd (by simp) (hf b hb)

theorem countDown_keys (e : Ev) (bs : List (Ev × Nat)) : (countDown e bs).map Prod.fst = bs.map Prod.fst := by
  induction bs with
  | nil => rfl
  | cons b bs ih =>
    obtain ⟨f, n⟩ := b
    simp only [countDown]
    split
    · simp
    · simp [ih]

theorem countDown_of (e : Ev) (p : Nat) (bs : List (Ev × Nat)) : of p (countDown e bs) = of p bs := by
  have key : ∀ l : List (Ev × Nat), of p l = (l.map Prod.fst).countP (fun e => e.part = p) := by
    intro l; rw [of, List.countP_map]; rfl
  rw [key, key, countDown_keys]

theorem countDown_mem {e : Ev} {bs : List (Ev × Nat)} (hn : (bs.map Prod.fst).Nodup) {b : Ev × Nat} (h : b ∈ countDown e bs) :
    (b.1 ≠ e ∧ b ∈ bs) ∨ (b.1 = e ∧ ∃ n, (e, n) ∈ bs ∧ b.2 = n - 1) := by
  induction bs with
  | nil => simp [countDown] at h
  | cons a bs ih =>
    obtain ⟨f, n⟩ := a
    simp only [List.map_cons, List.nodup_cons] at hn
    simp only [countDown] at h
    split at h
    · rename_i hf
      subst hf
      simp only [List.mem_cons] at h
      rcases h with rfl | h
      · exact .inr ⟨rfl, n, by simp, rfl⟩
      · refine .inl ⟨?_, by simp [h]⟩
        rintro e1
        exact hn.1 (e1 ▸ List.mem_map_of_mem h)
    · rename_i hf
      simp only [List.mem_cons] at h
      rcases h with rfl | h
      · exact .inl ⟨hf, by simp⟩
      · rcases ih hn.2 h with ⟨h1, h2⟩ | ⟨h1, m, h2, h3⟩
        · exact .inl ⟨h1, by simp [h2]⟩
        · exact .inr ⟨h1, m, by simp [h2], h3⟩

/-- Taking a record out of the client. -/
theorem count_erase {l : List Ev} {i : Nat} {e : Ev} (h : l[i]? = some e) (f : Ev) : l.count f = (l.eraseIdx i).count f + if f = e then 1 else 0 := by
  induction l generalizing i with
  | nil => simp at h
  | cons a l ih =>
    cases i with
    | zero =>
      simp only [List.getElem?_cons_zero, Option.some.injEq] at h
      subst h
      simp only [List.eraseIdx_zero, List.tail_cons, List.count_cons, beq_iff_eq]
      by_cases hf : f = a
      · simp [hf]
      · simp [hf, Ne.symm hf]
    | succ i =>
      simp only [List.getElem?_cons_succ] at h
      have := ih h
      simp only [List.eraseIdx_cons_succ, List.count_cons]
      omega

theorem of_filter {bs : List (Ev × Nat)} (hn : (bs.map Prod.fst).Nodup) {e : Ev} {n : Nat} (h : (e, n) ∈ bs) (p : Nat) :
    of p bs = of p (bs.filter fun b => b.1 ≠ e) + if e.part = p then 1 else 0 := by
  induction bs with
  | nil => simp at h
  | cons a bs ih =>
    simp only [List.map_cons, List.nodup_cons] at hn
    by_cases hf : a.1 = e
    · have hfil : bs.filter (fun b => b.1 ≠ e) = bs := by
        rw [List.filter_eq_self]
        intro b hb
        simp only [ne_eq, decide_eq_true_eq]
        rintro e1
        exact hn.1 (hf ▸ e1 ▸ List.mem_map_of_mem hb)
      rw [List.filter_cons_of_neg (by simp [hf]), hfil]
      simp only [of, List.countP_cons, hf, decide_eq_true_eq]
    · rw [List.filter_cons_of_pos (by simp [hf])]
      have := ih hn.2 (by simp only [List.mem_cons] at h; rcases h with rfl | h; exact absurd rfl hf; exact h)
      simp only [of, List.countP_cons] at this ⊢
      omega

theorem inv_step {c : Cfg} {s s' : Sys} {a : Act} (I : Inv c s) (h : step c s a = some s') : Inv c s' := by
  cases a with
  | arrive p n =>
    simp only [step] at h
    split at h
    · rename_i hc
      simp only [Option.some.injEq] at h; subst h
      have hnew : (⟨p, s.next, n + 1⟩ : Ev) ∉ s.batches.map Prod.fst := fun hm => absurd (I.old _ hm) (Nat.lt_irrefl _)
      have hnew' : (⟨p, s.next, n + 1⟩ : Ev) ∉ s.evq p := fun hm => absurd (I.mine p _ hm).2.1 (Nat.lt_irrefl _)
      refine ⟨I.keys, I.pend, I.bufIn, I.phIn, fun q e he => ?_, fun q => ?_, fun e he => Nat.lt_succ_of_lt (I.old e he), fun q => ?_, fun q => ?_⟩
      · dsimp only [upd] at he ⊢
        split at he
        · rename_i hq; subst hq
          simp only [List.mem_append, List.mem_singleton] at he
          rcases he with he | rfl
          · have := I.mine q e he; exact ⟨this.1, Nat.lt_succ_of_lt this.2.1, this.2.2⟩
          · exact ⟨rfl, Nat.lt_succ_self _, by simp, hnew⟩
        · have := I.mine q e he; exact ⟨this.1, Nat.lt_succ_of_lt this.2.1, this.2.2⟩
      · dsimp only [upd]
        split
        · rename_i hq
          rw [List.nodup_append]
          refine ⟨I.line p, by simp, fun a ha b hb => ?_⟩
          simp only [List.mem_singleton] at hb
          rintro rfl
          exact hnew' (hb ▸ ha)
        · exact I.line q
      · have := I.count q
        dsimp only [upd]
        by_cases hq : q = p
        · subst hq; simp only [if_true, List.length_append, List.length_singleton]; omega
        · simpa [hq] using this
      · have := I.cap q
        dsimp only [upd]
        by_cases hq : q = p
        · subst hq; simp only [if_true]; omega
        · simpa [hq] using this
    · simp at h
  | handle p =>
    simp only [step] at h
    split at h
    · rename_i e rest hph hev
      simp only [Option.some.injEq] at h; subst h
      have hm := I.mine p e (by rw [hev]; simp)
      have hl := I.line p
      rw [hev, List.nodup_cons] at hl
      have hbuf : s.buf.count e = 0 := List.count_eq_zero.2 fun hc => hm.2.2.2 (I.bufIn e hc)
      have hleft : ∀ f ∈ s.batches.map Prod.fst, left { s with evq := upd s.evq p rest, ph := upd s.ph p (.producing e e.recs), batches := s.batches ++ [(e, e.recs)] } f = left s f := by
        intro f hf
        simp only [left]
        by_cases hq : f.part = p
        · rw [hq, upd_self, hph]
          have : e ≠ f := fun hc => hm.2.2.2 (hc ▸ hf)
          simp [this]
        · rw [upd_ne _ _ hq]
      refine ⟨?_, fun b hb => ?_, fun f hf => ?_, fun q f l hq => ?_, fun q f hf => ?_, fun q => ?_, fun f hf => ?_, fun q => ?_, I.cap⟩
      · simp only [List.map_append, List.map_cons, List.map_nil]
        rw [List.nodup_append]
        refine ⟨I.keys, by simp, fun a ha b hb => ?_⟩
        simp only [List.mem_singleton] at hb
        rintro rfl
        exact hm.2.2.2 (hb ▸ ha)
      · simp only [List.mem_append, List.mem_singleton] at hb
        rcases hb with hb | rfl
        · rw [hleft b.1 (List.mem_map_of_mem hb)]; exact I.pend b hb
        · dsimp only
          rw [hbuf]
          simp only [left, hm.1, upd_self]
          simp [hm.2.2.1]
      · simp only [List.map_append, List.mem_append]; exact .inl (I.bufIn f hf)
      · dsimp only at hq ⊢
        simp only [List.map_append, List.mem_append, List.map_cons, List.map_nil, List.mem_singleton]
        by_cases hqp : q = p
        · subst hqp
          rw [upd_self] at hq
          injection hq with h1 h2
          subst h1 h2
          exact ⟨hm.1, hm.2.2.1, .inr rfl⟩
        · rw [upd_ne _ _ hqp] at hq
          have := I.phIn q f l hq
          exact ⟨this.1, this.2.1, .inl this.2.2⟩
      · dsimp only at hf ⊢
        have hmem : f ∈ s.evq q ∧ f ≠ e := by
          by_cases hqp : q = p
          · subst hqp
            rw [upd_self] at hf
            exact ⟨by rw [hev]; simp [hf], fun hc => hl.1 (hc ▸ hf)⟩
          · rw [upd_ne _ _ hqp] at hf
            exact ⟨hf, fun hc => hqp (by rw [← (I.mine q f hf).1, hc, hm.1])⟩
        have := I.mine q f hmem.1
        refine ⟨this.1, this.2.1, this.2.2.1, ?_⟩
        simp only [List.map_append, List.mem_append, List.map_cons, List.map_nil, List.mem_singleton, not_or]
        exact ⟨this.2.2.2, hmem.2⟩
      · dsimp only
        by_cases hqp : q = p
        · subst hqp; rw [upd_self]; exact hl.2
        · rw [upd_ne _ _ hqp]; exact I.line q
      · simp only [List.map_append, List.mem_append, List.map_cons, List.map_nil, List.mem_singleton] at hf
        rcases hf with hf | rfl
        · exact I.old f hf
        · exact hm.2.1
      · have := I.count q
        dsimp only
        have hof : of q (s.batches ++ [(e, e.recs)]) = of q s.batches + if p = q then 1 else 0 := by
          simp only [of, List.countP_append, List.countP_singleton, hm.1, decide_eq_true_eq]
        rw [hof]
        by_cases hqp : q = p
        · subst hqp
          rw [upd_self]
          rw [hev, List.length_cons] at this
          simp only [if_true]; omega
        · rw [upd_ne _ _ hqp, if_neg (fun hc => hqp hc.symm)]; exact this
    · simp at h
  | produce p =>
    simp only [step] at h
    split at h
    · rename_i e l hph
      split at h
      · simp only [Option.some.injEq] at h; subst h
        have hm := I.phIn p e _ hph
        refine ⟨I.keys, fun b hb => ?_, fun f hf => ?_, fun q f k hq => ?_, I.mine, I.line, I.old, I.count, I.cap⟩
        · have hb' := I.pend b hb
          refine ⟨?_, hb'.2⟩
          rw [hb'.1]
          simp only [left, List.count_append, List.count_singleton]
          by_cases hq : b.1.part = p
          · rw [hq, upd_self, hph]
            by_cases hbe : e = b.1
            · subst hbe
              by_cases hl : l = 0
              · subst hl; simp
              · simp [hl]; omega
            · by_cases hl : l = 0
              · subst hl; simp [hbe]
              · simp [hl, hbe]
          · rw [upd_ne _ _ hq]
            have : e ≠ b.1 := fun hc => hq (by rw [← hc, hm.1])
            simp [this]
        · simp only [List.mem_append, List.mem_singleton] at hf
          rcases hf with hf | rfl
          · exact I.bufIn f hf
          · exact hm.2.2
        · dsimp only at hq ⊢
          by_cases hqp : q = p
          · subst hqp
            rw [upd_self] at hq
            split at hq
            · simp at hq
            · rename_i hl
              injection hq with h1 h2
              subst h1 h2
              exact ⟨hm.1, by omega, hm.2.2⟩
          · rw [upd_ne _ _ hqp] at hq
            exact I.phIn q f k hq
      · simp at h
    · simp at h
  | promise i =>
    simp only [step] at h
    split at h
    · rename_i e hpo hbuf
      have hcnt := count_erase hbuf
      split at h
      · simp at h
      · rename_i n hp
        have hmem := pending_mem hp
        have hpe := I.pend _ hmem
        dsimp only at hpe
        have he1 := hcnt e
        rw [if_pos rfl] at he1
        split at h
        · rename_i hn1
          simp only [Option.some.injEq] at h; subst h
          have hleft : left s e = 0 := by omega
          have hsub : ∀ f, f ∈ s.batches.map Prod.fst → f ≠ e → f ∈ (s.batches.filter fun b => b.1 ≠ e).map Prod.fst := by
            intro f hf hne
            obtain ⟨b, hb, rfl⟩ := List.mem_map.1 hf
            exact List.mem_map.2 ⟨b, List.mem_filter.2 ⟨hb, by simpa using hne⟩, rfl⟩
          have hsub' : ∀ f, f ∈ (s.batches.filter fun b => b.1 ≠ e).map Prod.fst → f ∈ s.batches.map Prod.fst := by
            intro f hf
            obtain ⟨b, hb, rfl⟩ := List.mem_map.1 hf
            exact List.mem_map_of_mem (List.mem_filter.1 hb).1
          refine ⟨?_, fun b hb => ?_, fun f hf => ?_, fun q f l hq => ?_, fun q f hf => ?_, I.line, fun f hf => I.old f (hsub' f hf), fun q => ?_, I.cap⟩
          · exact I.keys.sublist (List.Sublist.map _ List.filter_sublist)
          · obtain ⟨hb1, hb2⟩ := List.mem_filter.1 hb
            simp only [ne_eq, decide_eq_true_eq] at hb2
            have := I.pend b hb1
            have h2 := hcnt b.1
            rw [if_neg hb2] at h2
            refine ⟨?_, this.2⟩
            rw [this.1, h2]
            rfl
          · dsimp only at hf ⊢
            apply hsub f
            · exact I.bufIn f (List.mem_of_mem_eraseIdx hf)
            · rintro rfl
              have := List.count_pos_iff.2 hf
              omega
          · dsimp only at hq ⊢
            have := I.phIn q f l hq
            refine ⟨this.1, this.2.1, hsub f this.2.2 ?_⟩
            rintro rfl
            simp only [left, this.1, hq, if_true] at hleft
            omega
          · dsimp only at hf ⊢
            have := I.mine q f hf
            exact ⟨this.1, this.2.1, this.2.2.1, fun hc => this.2.2.2 (hsub' f hc)⟩
          · have := I.count q
            dsimp only
            rw [of_filter I.keys hmem q] at this
            rw [hpo] at this
            simp only [here] at this ⊢
            omega
        · rename_i hn1
          simp only [Option.some.injEq] at h; subst h
          refine ⟨?_, fun b hb => ?_, fun f hf => ?_, fun q f l hq => ?_, fun q f hf => ?_, I.line, ?_, fun q => ?_, I.cap⟩
          · dsimp only; rw [countDown_keys]; exact I.keys
          · dsimp only at hb ⊢
            rcases countDown_mem I.keys hb with ⟨h1, h2⟩ | ⟨h1, m, h2, h3⟩
            · have := I.pend b h2
              have hc := hcnt b.1
              rw [if_neg h1] at hc
              refine ⟨?_, this.2⟩
              rw [this.1, hc]
              rfl
            · have := I.pend _ h2
              dsimp only at this
              have hmn : m = n := by omega
              subst hmn
              rw [h1, h3]
              show m - 1 = (s.buf.eraseIdx i).count e + left s e ∧ _
              omega
          · dsimp only at hf ⊢; rw [countDown_keys]; exact I.bufIn f (List.mem_of_mem_eraseIdx hf)
          · dsimp only at hq ⊢; rw [countDown_keys]; exact I.phIn q f l hq
          · dsimp only at hf ⊢; rw [countDown_keys]; exact I.mine q f hf
          · dsimp only; rw [countDown_keys]; exact I.old
          · dsimp only; rw [countDown_of]; exact I.count q
    · simp at h
  | post =>
    simp only [step] at h
    split at h
    · rename_i e hpo
      split at h
      · simp only [Option.some.injEq] at h; subst h
        refine ⟨I.keys, I.pend, I.bufIn, I.phIn, I.mine, I.line, I.old, fun q => ?_, I.cap⟩
        have := I.count q
        dsimp only
        rw [hpo] at this
        by_cases hq : q = e.part
        · subst hq
          rw [upd_self]
          simp only [here, if_true, List.length_append, List.length_singleton] at this ⊢
          omega
        · rw [upd_ne _ _ hq]
          simp only [here, if_neg (fun hc : e.part = q => hq hc.symm)] at this ⊢
          exact this
      · simp at h
    · simp at h
  | job p =>
    simp only [step] at h
    split at h
    · rename_i e rest hph hj
      simp only [Option.some.injEq] at h; subst h
      refine ⟨I.keys, I.pend, I.bufIn, I.phIn, I.mine, I.line, I.old, fun q => ?_, fun q => ?_⟩
      · have := I.count q
        dsimp only
        by_cases hq : q = p
        · subst hq
          rw [hj, List.length_cons] at this
          rw [upd_self, upd_self]
          omega
        · rw [upd_ne _ _ hq, upd_ne _ _ hq]; exact this
      · have := I.cap q
        dsimp only
        by_cases hq : q = p
        · subst hq; rw [upd_self]; omega
        · rw [upd_ne _ _ hq]; exact this
    · simp at h

theorem inv_run {c : Cfg} {as : List Act} {s s' : Sys} (I : Inv c s) (h : run c s as = some s') : Inv c s' := by
  induction as generalizing s with
  | nil => simp only [run, Option.some.injEq] at h; subst h; exact I
  | cons a as ih =>
    simp only [run, Option.bind_eq_some_iff] at h
    obtain ⟨s1, e1, e2⟩ := h
    exact ih (inv_step I e1) e2

theorem inv_reach {c : Cfg} {s : Sys} (h : Reach c s) : Inv c s := by
  obtain ⟨as, h⟩ := h
  exact inv_run (inv_init c) h

/-- The channel of the worker has fewer jobs than slots while a promise is about to fill one. -/
theorem room {c : Cfg} {s : Sys} (I : Inv c s) {e : Ev} (h : s.posting = some e) : (s.jobs e.part).length < c.maxPending := by
  have h1 := I.count e.part
  have h2 := I.cap e.part
  rw [h] at h1
  simp only [here, if_true] at h1
  omega

theorem asyncSize_pos (c : Cfg) : 1 ≤ c.asyncSize := by
  show 1 ≤ max (c.maxBatch / 10) 100 * 4
  omega

theorem of_pos {e : Ev} {bs : List (Ev × Nat)} (h : e ∈ bs.map Prod.fst) : 1 ≤ of e.part bs := by
  obtain ⟨b, hb, rfl⟩ := List.mem_map.1 h
  exact List.countP_pos_iff.2 ⟨b, hb, by simp⟩

/-- When nothing moves by itself, all is done. -/
theorem quiet {c : Cfg} {s : Sys} (I : Inv c s) (hP : c.maxPending ≤ c.asyncSize + 1) (hB : 1 ≤ c.maxBuffered)
    (hend : ∀ a, (∀ p n, a ≠ .arrive p n) → step c s a = none) (p : Nat) :
    (s.ph p = .idle ∧ s.evq p = [] ∧ s.jobs p = [] ∧ s.slots p = 0) ∧ s.buf = [] ∧ s.batches = [] ∧ s.posting = none := by
  have hpo : s.posting = none := by
    cases e : s.posting with
    | none => rfl
    | some x =>
      exfalso
      have hA := asyncSize_pos c
      have h := hend .post (by simp)
      by_cases hroom : (s.jobs x.part).length < c.asyncSize
      · simp only [step, e, if_pos hroom, reduceCtorEq] at h
      · have h1 := I.count x.part
        have h2 := I.cap x.part
        rw [e] at h1
        simp only [here, if_true] at h1
        have hidle : s.ph x.part = .idle := by
          cases hph : s.ph x.part with
          | idle => rfl
          | producing f l =>
            obtain ⟨hf, _, hin⟩ := I.phIn _ f l hph
            have := of_pos hin
            rw [hf] at this
            omega
        cases hj : s.jobs x.part with
        | nil => simp [hj] at hroom; omega
        | cons y rest =>
          have h := hend (.job x.part) (by simp)
          simp [step, hj, hidle] at h
  have hbuf : s.buf = [] := by
    cases e : s.buf with
    | nil => rfl
    | cons x rest =>
      obtain ⟨n, hn⟩ := pending_of (I.bufIn x (by rw [e]; simp))
      have h := hend (.promise 0) (by simp)
      simp only [step, hpo, e, List.getElem?_cons_zero, hn] at h
      split at h <;> simp at h
  have hidle : ∀ q, s.ph q = .idle := by
    intro q
    cases e : s.ph q with
    | idle => rfl
    | producing x l =>
      have hm := I.phIn q x l e
      obtain ⟨l', rfl⟩ : ∃ l', l = l' + 1 := ⟨l - 1, by omega⟩
      have h := hend (.produce q) (by simp)
      simp only [step, e, Sys.buffered, hbuf, hpo] at h
      rw [if_pos (by simp; omega)] at h
      simp at h
  have hevq : s.evq p = [] := by
    cases e : s.evq p with
    | nil => rfl
    | cons x rest =>
      have h := hend (.handle p) (by simp)
      simp [step, e, hidle p] at h
  have hjobs : s.jobs p = [] := by
    cases e : s.jobs p with
    | nil => rfl
    | cons x rest =>
      have h := hend (.job p) (by simp)
      simp [step, e, hidle p] at h
  have hbat : s.batches = [] := by
    cases e : s.batches with
    | nil => rfl
    | cons b rest =>
      have := I.pend b (by rw [e]; simp)
      simp only [hbuf, left, hidle, List.count_nil] at this
      omega
  refine ⟨⟨hidle p, hevq, hjobs, ?_⟩, hbuf, hbat, hpo⟩
  have := I.count p
  rw [hevq, hjobs, hbat, hpo] at this
  simpa [of, here] using this

end Verif.Promise
