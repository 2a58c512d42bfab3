import Verif.Simple.Proofs
import Verif.Scheduler.Bounded
/-
Every schedule of the simple producer ends; what it looks like then; how a callback that calls the producer stops it.
-/
namespace Verif.Simple
open Verif.Scheduler (sumTo sumTo_one)

/-- What happens without a new call. -/
def own : Act → Bool
  | .call _ _ | .nested _ => false
  | _ => true

/-! ### Every schedule ends -/

/-- The steps before a caller. -/
def weight : Phase → Nat
  | .idle => 0
  | .producing _ => 5
  | .waiting _ => 1

/-- The steps that remain. -/
def todo (N : Nat) (s : Sys) : Nat :=
  sumTo (fun t => weight (s.ph t)) N + 2 * s.buf.length + match s.cur with
    | some c => weight c.inner
    | none => 1

/-- Goroutines from `N` on do nothing. -/
def Outside (N : Nat) (s : Sys) : Prop := ∀ t, N ≤ t → s.ph t = .idle

theorem upd_self (f : Nat → Phase) (t : Nat) (v : Phase) : upd f t v t = v := by simp [upd]
theorem upd_ne (f : Nat → Phase) {t u : Nat} (v : Phase) (h : u ≠ t) : upd f t v u = f u := by simp [upd, h]

theorem weight_after (c : Call) (i : Nat) : weight (afterProduce c i) ≤ 1 := by unfold afterProduce; split <;> simp [weight]

theorem todo_own {cfg : Cfg} {N : Nat} {s s' : Sys} {a : Act} (I : Inv cfg s) (O : Outside N s) (ha : own a = true) (h : step cfg s a = some s') :
    todo N s' < todo N s ∧ Outside N s' := by
  have one : ∀ t v, t < N → sumTo (fun u => weight (upd s.ph t v u)) N + weight (s.ph t) = sumTo (fun u => weight (s.ph u)) N + weight v := by
    intro t v ht
    have := sumTo_one (f := fun u => weight (s.ph u)) (g := fun u => weight (upd s.ph t v u)) ht (fun u hu => by rw [upd_ne _ _ hu])
    simpa [upd_self] using this
  have lt : ∀ t, s.ph t ≠ .idle → t < N := fun t ht => by
    by_contra hc
    exact ht (O t (by omega))
  have outs : ∀ t v, t < N → ∀ u, N ≤ u → upd s.ph t v u = .idle := fun t v ht u hu => by
    rw [upd_ne _ _ (by omega)]; exact O u hu
  cases a with
  | call t c => simp [own] at ha
  | nested c => simp [own] at ha
  | produce t =>
    simp only [step] at h
    split at h
    · rename_i i hi
      split at h
      · rename_i c hc
        split at h
        · simp only [Option.some.injEq] at h; subst h
          have ht := lt t (by rw [hi]; simp)
          have := one t (afterProduce c i) ht
          have := weight_after c i
          rw [hi] at *
          refine ⟨?_, outs t _ ht⟩
          simp only [todo, List.length_append, List.length_singleton, weight] at *
          omega
        · simp at h
      · simp at h
    · simp at h
  | promise i e =>
    simp only [step] at h
    split at h
    · rename_i c hn hc
      split at h
      · simp only [Option.some.injEq] at h; subst h
        refine ⟨?_, O⟩
        simp [todo, hn, weight]
      · simp at h
    · simp at h
  | nestedProduce =>
    simp only [step] at h
    split at h
    · rename_i i e j hn
      split at h
      · rename_i c hc
        split at h
        · simp only [Option.some.injEq] at h; subst h
          have := weight_after c j
          refine ⟨?_, O⟩
          have h5 : weight (.producing j) = 5 := rfl
          simp only [todo, hn, List.length_append, List.length_singleton, h5]
          omega
        · simp at h
      · simp at h
    · simp at h
  | nestedReturn =>
    simp only [step] at h
    split at h
    · rename_i i e j hn
      split at h
      · simp only [Option.some.injEq] at h; subst h
        exact ⟨by simp [todo, hn, weight], O⟩
      · simp at h
    · simp at h
  | finish =>
    simp only [step] at h
    split at h
    · rename_i i e hn
      simp only [Option.some.injEq] at h; subst h
      refine ⟨?_, O⟩
      have hm : i ∈ s.buf := (I.curB (i, e) (by simp [hn])).1
      have := List.length_erase_of_mem hm
      have := List.length_pos_of_mem hm
      simp only [todo, hn, weight]
      omega
    · simp at h
  | ret t =>
    simp only [step] at h
    split at h
    · rename_i i hi
      split at h
      · simp only [Option.some.injEq] at h; subst h
        have ht := lt t (by rw [hi]; simp)
        have := one t .idle ht
        rw [hi] at *
        refine ⟨?_, outs t _ ht⟩
        simp only [todo, weight] at *
        omega
      · simp at h
    · simp at h

theorem own_run {cfg : Cfg} {N : Nat} : ∀ (as : List Act) (s s' : Sys), Inv cfg s → Outside N s → (∀ a ∈ as, own a = true) → run cfg s as = some s' → as.length ≤ todo N s := by
  intro as
  induction as with
  | nil => intros; exact Nat.zero_le _
  | cons a as ih =>
    intro s s' I O ha h
    simp only [run, Option.bind_eq_some_iff] at h
    obtain ⟨s1, e1, e2⟩ := h
    obtain ⟨h1, h2⟩ := todo_own I O (ha a (by simp)) e1
    have := ih s1 s' (inv_step I e1) h2 (fun b hb => ha b (by simp [hb])) e2
    simp only [List.length_cons]
    omega

theorem outside_step {cfg : Cfg} {s s' : Sys} {a : Act} (h : step cfg s a = some s') (O : ∃ N, Outside N s) : ∃ N, Outside N s' := by
  obtain ⟨N, O⟩ := O
  have outs : ∀ t v, ∃ M, ∀ u, M ≤ u → upd s.ph t v u = .idle := fun t v => ⟨max N (t + 1), fun u hu => by
    rw [upd_ne _ _ (by omega)]; exact O u (by omega)⟩
  cases a <;> simp only [step] at h <;> (repeat' split at h) <;> first
    | (simp at h; done)
    | (simp only [Option.some.injEq] at h; subst h; first | exact outs _ _ | exact ⟨N, O⟩)

theorem outside_run {cfg : Cfg} {s s' : Sys} {as : List Act} (h : run cfg s as = some s') (O : ∃ N, Outside N s) : ∃ N, Outside N s' := by
  induction as generalizing s with
  | nil => simp only [run, Option.some.injEq] at h; subst h; exact O
  | cons a as ih =>
    simp only [run, Option.bind_eq_some_iff] at h
    obtain ⟨s1, e1, e2⟩ := h
    exact ih e2 (outside_step e1 O)

/-! ### At rest -/

/-- A callback of `ProduceAsync` is itself in `Produce`, or in `ProduceAsync` with a client that keeps as many records as it may. -/
def Caught (cfg : Cfg) (s : Sys) : Prop :=
  ∃ i e, (∃ j, s.cur = some ⟨i, e, .waiting j⟩) ∨ (∃ j, s.cur = some ⟨i, e, .producing j⟩ ∧ cfg.max ≤ s.buf.length)

theorem find_done {cfg : Cfg} {s : Sys} (I : Inv cfg s) {i : Nat} (hs : isSync s.calls i = true) (he : i ∈ s.ends.map Prod.fst) : ∃ x, s.done.find? (fun d => d.1 = i) = some x := by
  obtain ⟨x, hx, rfl⟩ := List.mem_map.1 he
  rw [← Option.isSome_iff_exists, List.find?_isSome]
  refine ⟨x, ?_, by simp⟩
  rw [I.doneE]
  exact List.mem_filter.2 ⟨hx, hs⟩

theorem rest_cases {cfg : Cfg} {s : Sys} (hm : 1 ≤ cfg.max) (I : Inv cfg s) (hend : ∀ a, own a = true → step cfg s a = none) :
    Caught cfg s ∨ (s.cur = none ∧ s.buf = [] ∧ ∀ a, s.phase a = .idle) := by
  cases hc : s.cur with
  | some c =>
    obtain ⟨i, e, p⟩ := c
    left
    cases p with
    | idle =>
      have := hend .finish rfl
      simp [step, hc] at this
    | producing j =>
      have hj := (I.pr none j (by simp [Sys.phase, hc])).1
      have := hend .nestedProduce rfl
      simp only [step, hc, List.getElem?_eq_getElem hj] at this
      refine ⟨i, e, .inr ⟨j, hc, ?_⟩⟩
      by_contra hlt
      rw [if_pos (by omega)] at this
      simp at this
    | waiting j => exact ⟨i, e, .inl ⟨j, hc⟩⟩
  | none =>
    right
    have hbuf : s.buf = [] := by
      cases hb : s.buf with
      | nil => rfl
      | cons i rest =>
        have hi := I.lt (I.bufS i (by rw [hb]; simp))
        have := hend (.promise i none) rfl
        simp [step, hc, List.getElem?_eq_getElem hi, hb] at this
    refine ⟨rfl, hbuf, fun a => ?_⟩
    cases a with
    | none => simp [Sys.phase, hc]
    | some t =>
      cases hp : s.phase (some t) with
      | idle => rfl
      | producing i =>
        have hi := (I.pr _ i hp).1
        have hp' : s.ph t = .producing i := hp
        have := hend (.produce t) rfl
        simp [step, hp', List.getElem?_eq_getElem hi, hbuf] at this
        omega
      | waiting i =>
        have hw := I.wt _ i hp
        have hp' : s.ph t = .waiting i := hp
        have he : i ∈ s.ends.map Prod.fst := by
          rcases I.opn i hw.1 with h | h
          · exact h
          · rw [hbuf] at h; simp at h
        obtain ⟨x, hx⟩ := find_done I hw.2.1 he
        have := hend (.ret t) rfl
        simp [step, hp', hx] at this

/-- Without calls from callbacks no callback is ever in the producer. -/
theorem free_step {cfg : Cfg} {s s' : Sys} {a : Act} (h : step cfg s a = some s') (ha : ∀ c, a ≠ .nested c) (hf : s.phase none = .idle) : s'.phase none = .idle := by
  cases a with
  | nested c => exact absurd rfl (ha c)
  | nestedProduce =>
    simp only [step] at h
    split at h
    · rename_i i e j hn
      simp [Sys.phase, hn] at hf
    · simp at h
  | nestedReturn =>
    simp only [step] at h
    split at h
    · rename_i i e j hn
      simp [Sys.phase, hn] at hf
    · simp at h
  | promise i e =>
    simp only [step] at h
    repeat' split at h
    all_goals first
      | (simp at h; done)
      | (simp only [Option.some.injEq] at h; subst h; rfl)
  | finish =>
    simp only [step] at h
    repeat' split at h
    all_goals first
      | (simp at h; done)
      | (simp only [Option.some.injEq] at h; subst h; rfl)
  | _ =>
    simp only [step] at h
    repeat' split at h
    all_goals first
      | (simp at h; done)
      | (simp only [Option.some.injEq] at h; subst h; exact hf)

theorem free_run {cfg : Cfg} {s s' : Sys} {as : List Act} (h : run cfg s as = some s') (ha : ∀ a ∈ as, ∀ c, a ≠ .nested c) (hf : s.phase none = .idle) : s'.phase none = .idle := by
  induction as generalizing s with
  | nil => simp only [run, Option.some.injEq] at h; subst h; exact hf
  | cons a as ih =>
    simp only [run, Option.bind_eq_some_iff] at h
    obtain ⟨s1, e1, e2⟩ := h
    exact ih e2 (fun b hb => ha b (by simp [hb])) (free_step e1 (ha a (by simp)) hf)

/-! ### For ever -/

/-- A callback that is caught with a record that has not ended stays so. -/
def Stuck (cfg : Cfg) (ends : List (Nat × Option Nat)) (s : Sys) : Prop :=
  s.ends = ends ∧ ∃ i e, (∃ j, s.cur = some ⟨i, e, .waiting j⟩ ∧ j ∉ ends.map Prod.fst) ∨ (∃ j, s.cur = some ⟨i, e, .producing j⟩ ∧ cfg.max ≤ s.buf.length)

theorem stuck_step {cfg : Cfg} {ends : List (Nat × Option Nat)} {s s' : Sys} {a : Act} (I : Inv cfg s) (S : Stuck cfg ends s) (h : step cfg s a = some s') : Stuck cfg ends s' := by
  obtain ⟨he, i, e, S⟩ := S
  have hcur : ∃ p, s.cur = some ⟨i, e, p⟩ ∧ p ≠ .idle := by
    rcases S with ⟨j, hj, _⟩ | ⟨j, hj, _⟩ <;> exact ⟨_, hj, by simp⟩
  obtain ⟨p, hp, hpi⟩ := hcur
  cases a with
  | call t c =>
    simp only [step] at h
    split at h
    · simp only [Option.some.injEq] at h; subst h; exact ⟨he, i, e, S⟩
    · simp at h
  | produce t =>
    simp only [step] at h
    split at h
    · split at h
      · split at h
        · rename_i hlt
          simp only [Option.some.injEq] at h; subst h
          rcases S with S | ⟨j, hj, hfull⟩
          · exact ⟨he, i, e, .inl S⟩
          · omega
        · simp at h
      · simp at h
    · simp at h
  | promise i' e' => simp [step, hp] at h
  | nested c =>
    simp only [step, hp] at h
    split at h
    · rename_i hc
      simp only [Option.some.injEq, Cur.mk.injEq] at hc
      exact absurd hc.2.2 hpi
    · simp at h
  | nestedProduce =>
    simp only [step] at h
    split at h
    · rename_i i' e' j' hn
      rcases S with ⟨j, hj, _⟩ | ⟨j, hj, hfull⟩
      · rw [hj] at hn; simp at hn
      · split at h
        · rw [if_neg (by omega)] at h; simp at h
        · simp at h
    · simp at h
  | nestedReturn =>
    simp only [step] at h
    split at h
    · rename_i i' e' j' hn
      rcases S with ⟨j, hj, hno⟩ | ⟨j, hj, hfull⟩
      · rw [hj] at hn
        simp only [Option.some.injEq, Cur.mk.injEq, Phase.waiting.injEq] at hn
        obtain ⟨rfl, rfl, rfl⟩ := hn
        split at h
        · rename_i x hx
          have hx1 : x.1 = j := by simpa using List.find?_some hx
          have hx2 := List.mem_of_find?_eq_some hx
          rw [I.doneE] at hx2
          refine absurd ?_ hno
          rw [← hx1, ← he]
          exact List.mem_map_of_mem (List.mem_filter.1 hx2).1
        · simp at h
      · rw [hj] at hn; simp at hn
    · simp at h
  | finish =>
    simp only [step, hp] at h
    split at h
    · rename_i hc
      simp only [Option.some.injEq, Cur.mk.injEq] at hc
      exact absurd hc.2.2 hpi
    · simp at h
  | ret t =>
    simp only [step] at h
    split at h
    · split at h
      · simp only [Option.some.injEq] at h; subst h; exact ⟨he, i, e, S⟩
      · simp at h
    · simp at h

theorem stuck_run {cfg : Cfg} {ends : List (Nat × Option Nat)} {s s' : Sys} {as : List Act} (I : Inv cfg s) (S : Stuck cfg ends s) (h : run cfg s as = some s') : Stuck cfg ends s' := by
  induction as generalizing s with
  | nil => simp only [run, Option.some.injEq] at h; subst h; exact S
  | cons a as ih =>
    simp only [run, Option.bind_eq_some_iff] at h
    obtain ⟨s1, e1, e2⟩ := h
    exact ih (inv_step I e1) (stuck_step I S e1) e2

theorem run_append {cfg : Cfg} {s s' s'' : Sys} {a b : List Act} (h1 : run cfg s a = some s') (h2 : run cfg s' b = some s'') : run cfg s (a ++ b) = some s'' := by
  induction a generalizing s with
  | nil => simp only [run, Option.some.injEq] at h1; subst h1; exact h2
  | cons x a ih =>
    simp only [run, Option.bind_eq_some_iff] at h1
    obtain ⟨s1, e1, e2⟩ := h1
    simp only [List.cons_append, run, e1, Option.bind_some]
    exact ih e2

theorem calls_grow {cfg : Cfg} {s s' : Sys} {as : List Act} (h : run cfg s as = some s') : ∃ l, s'.calls = s.calls ++ l := by
  induction as generalizing s with
  | nil => simp only [run, Option.some.injEq] at h; subst h; exact ⟨[], by simp⟩
  | cons a as ih =>
    simp only [run, Option.bind_eq_some_iff] at h
    obtain ⟨s1, e1, e2⟩ := h
    obtain ⟨l, hl⟩ := ih e2
    have h1 : ∃ l, s1.calls = s.calls ++ l := by
      cases a <;> simp only [step] at e1 <;> (repeat' split at e1) <;> first
        | (simp at e1; done)
        | (simp only [Option.some.injEq] at e1; subst e1; first | exact ⟨_, rfl⟩ | exact ⟨[], by simp⟩)
    obtain ⟨l1, hl1⟩ := h1
    exact ⟨l1 ++ l, by rw [hl, hl1, List.append_assoc]⟩

/-- `n` records with callbacks are in the client. -/
structure Full (n : Nat) (s : Sys) : Prop where
  calls : s.calls = List.replicate n ⟨false, [], true⟩
  ph : s.ph 0 = .idle
  buf : s.buf = List.range n
  cur : s.cur = none
  ends : s.ends = []

theorem reach_full (cfg : Cfg) : ∀ n, n ≤ cfg.max → ∃ s, Reach cfg s ∧ Full n s := by
  intro n
  induction n with
  | zero => intro _; exact ⟨Sys.init, ⟨[], rfl⟩, rfl, rfl, rfl, rfl, rfl⟩
  | succ n ih =>
    intro hn
    obtain ⟨s, ⟨as, hs⟩, F⟩ := ih (by omega)
    have hlt : n < cfg.max := by omega
    suffices h : ∃ s', run cfg s [.call 0 ⟨false, [], true⟩, .produce 0] = some s' ∧ Full (n + 1) s' by
      obtain ⟨s', h1, h2⟩ := h
      exact ⟨s', ⟨_, run_append hs h1⟩, h2⟩
    obtain ⟨f1, f2, f3, f4, f5⟩ := F
    simp [run, step, f2, f1, f3, upd, hlt, afterProduce]
    refine ⟨?_, ?_, ?_, f4, f5⟩
    · simp [List.replicate_succ']
    · simp [upd]
    · simp [List.range_succ]

end Verif.Simple
