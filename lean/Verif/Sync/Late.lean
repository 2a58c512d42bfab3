import Mathlib.Tactic.Common
/-
When `populate` looks at the field `buffer`: `prep` starts it as a goroutine (`streams/state_store_consumer.go:143`), and `range ssp.buffer` (167) evaluates the field when that goroutine runs, which may be
after a later `kill` (79) or `prep` (134).

Simplifications: `kill` is one step (see `Verif.Sync.Kill` for its small steps); records are numbers and are taken one by one; capacities and marks are left out; every preparation has its own store, `i` for
`populate` `i`, as after a revocation or for a new assignment.
-/
namespace Verif.Sync.Late

/-- The field `buffer`, the number of channels made, what each channel holds and what has ever been sent to it, the `populate` goroutines with the channel they read (`none`: not running yet; `some none`: they
read the nil channel), and what each store has received. `streams/state_store_consumer.go:50-60,130-173`. -/
structure L where
  buffer : Option Nat
  made : Nat
  queue : Nat → List Nat
  sent : Nat → List Nat
  pops : List (Option (Option Nat))
  applied : Nat → List Nat

/-- A partition as `newStateStoreConsumer` makes it, with the channel of line 236, `streams/state_store_consumer.go:230-237`. -/
def L.init : L := { buffer := some 0, made := 1, queue := fun _ => [], sent := fun _ => [], pops := [], applied := fun _ => [] }

/-- What can happen. `streams/state_store_consumer.go:62-81,130-173`. -/
inductive Act where
  /-- a preparation, with a new channel and a new `populate`, `streams/state_store_consumer.go:134,143` -/
  | prep
  /-- `kill`, `streams/state_store_consumer.go:76-81` -/
  | kill
  /-- `populate` number `i` begins to run and evaluates `ssp.buffer`, `streams/state_store_consumer.go:167` -/
  | start (i : Nat)
  /-- the consumer sends record `r` to the channel, `streams/state_store_consumer.go:63` -/
  | add (r : Nat)
  /-- `populate` number `i` receives the next record and gives it to its store, `streams/state_store_consumer.go:167,182` -/
  | take (i : Nat)
  deriving DecidableEq, Repr

/-- Function update. `streams/state_store_consumer.go:50-60`. -/
def upd (f : Nat → List Nat) (t : Nat) (v : List Nat) : Nat → List Nat := fun u => if u = t then v else f u

/-- One step; without a channel nothing can be sent, and nothing is received from the nil channel. `streams/state_store_consumer.go:62-81,130-173`. -/
def step (s : L) : Act → Option L
  | .prep => some { s with buffer := some s.made, made := s.made + 1, pops := s.pops ++ [none] }
  | .kill => some { s with buffer := none }
  | .start i =>
    match s.pops[i]? with
    | some none => some { s with pops := s.pops.set i (some s.buffer) }
    | _ => none
  | .add r =>
    match s.buffer with
    | some b => some { s with queue := upd s.queue b (s.queue b ++ [r]), sent := upd s.sent b (s.sent b ++ [r]) }
    | none => none
  | .take i =>
    match s.pops[i]? with
    | some (some (some b)) =>
      match s.queue b with
      | r :: rs => some { s with queue := upd s.queue b rs, applied := upd s.applied i (s.applied i ++ [r]) }
      | [] => none
    | _ => none

/-- Several steps. `streams/state_store_consumer.go:62-81,130-173`. -/
def run (s : L) : List Act → Option L
  | [] => some s
  | a :: as => (step s a).bind fun s' => run s' as

/-- Every `populate` runs before the next `kill` or `prep`. -/
def Prompt : L → List Act → Prop
  | _, [] => True
  | s, a :: as => (a = .prep ∨ a = .kill → ∀ c ∈ s.pops, c ≠ none) ∧ ∀ s', step s a = some s' → Prompt s' as

/-- Every `populate` reads the channel of its preparation, the first `i + 1`. -/
structure Own (s : L) : Prop where
  made : s.made = s.pops.length + 1
  last : ∀ i, s.pops[i]? = some none → s.buffer = some (i + 1)
  own : ∀ i c, s.pops[i]? = some (some c) → c = some (i + 1)
  flow : ∀ i, s.applied i ++ s.queue (i + 1) = s.sent (i + 1)
  none : ∀ i, s.pops[i]? = none → s.applied i = []

theorem own_init : Own L.init := by
  constructor <;> simp [L.init]

theorem upd_self (f : Nat → List Nat) (t : Nat) (v : List Nat) : upd f t v t = v := by simp [upd]

theorem upd_ne (f : Nat → List Nat) {t u : Nat} (v : List Nat) (h : u ≠ t) : upd f t v u = f u := by simp [upd, h]

theorem own_step {s s' : L} {a : Act} (O : Own s) (hp : a = .prep ∨ a = .kill → ∀ c ∈ s.pops, c ≠ none) (h : step s a = some s') : Own s' := by
  obtain ⟨made, last, own, flow, non⟩ := O
  cases a with
  | prep =>
    have hp := hp (.inl rfl)
    simp only [step, Option.some.injEq] at h; subst h
    refine ⟨by simp [made], fun i hi => ?_, fun i c hi => ?_, flow, fun i hi => non i ?_⟩
    · simp only [List.getElem?_append] at hi
      split at hi
      · exact absurd rfl (hp _ (List.mem_of_getElem? hi))
      · rename_i hl
        have : i = s.pops.length := by
          by_contra hc
          rw [List.getElem?_eq_none (by simp; omega)] at hi
          simp at hi
        subst this
        simp [made]
    · simp only [List.getElem?_append] at hi
      split at hi
      · exact own i c hi
      · rename_i hl
        by_cases hc : i - s.pops.length = 0
        · rw [hc] at hi; simp at hi
        · rw [List.getElem?_eq_none (by simp; omega)] at hi; simp at hi
    · rw [List.getElem?_eq_none_iff] at hi ⊢
      simp at hi; omega
  | kill =>
    have hp := hp (.inr rfl)
    simp only [step, Option.some.injEq] at h; subst h
    exact ⟨made, fun i hi => absurd rfl (hp _ (List.mem_of_getElem? hi)), own, flow, non⟩
  | start i =>
    simp only [step] at h
    split at h
    · rename_i hi
      simp only [Option.some.injEq] at h; subst h
      have hlt := (List.getElem?_eq_some_iff.1 hi).1
      refine ⟨by simp [made], fun j hj => ?_, fun j c hj => ?_, flow, fun j hj => non j ?_⟩
      · rw [List.getElem?_set] at hj
        split at hj
        · simp at hj
        · exact last j hj
      · rw [List.getElem?_set] at hj
        split at hj
        · rename_i e; subst e
          have := last i hi
          rw [this] at hj
          simpa using hj.symm
        · exact own j c hj
      · rw [List.getElem?_eq_none_iff] at hj ⊢
        simpa using hj
    · simp at h
  | add r =>
    simp only [step] at h
    split at h
    · rename_i b hb
      simp only [Option.some.injEq] at h; subst h
      refine ⟨made, last, own, fun i => ?_, non⟩
      by_cases hc : i + 1 = b
      · subst hc; simp only [upd_self]; rw [← flow i, List.append_assoc]
      · simp only [upd_ne _ _ hc]; exact flow i
    · simp at h
  | take i =>
    simp only [step] at h
    split at h
    · rename_i b hi
      split at h
      · rename_i r rs hq
        simp only [Option.some.injEq] at h; subst h
        have hb := own i _ hi
        simp only [Option.some.injEq] at hb; subst hb
        refine ⟨made, last, own, fun j => ?_, fun j hj => ?_⟩
        · by_cases hc : j = i
          · subst hc; simp only [upd_self]; rw [← flow j, hq, List.append_assoc, List.singleton_append]
          · simp only [upd_ne _ _ hc, upd_ne _ _ (by omega : j + 1 ≠ i + 1)]; exact flow j
        · have hc : j ≠ i := by
            rintro rfl
            exact absurd (hj.symm.trans hi) (by simp)
          simp only [upd_ne _ _ hc]; exact non j hj
      · simp at h
    · simp at h

theorem own_run {as : List Act} {s s' : L} (O : Own s) (hp : Prompt s as) (h : run s as = some s') : Own s' := by
  induction as generalizing s with
  | nil => simp only [run, Option.some.injEq] at h; subst h; exact O
  | cons a as ih =>
    simp only [run, Option.bind_eq_some_iff] at h
    obtain ⟨s1, e1, e2⟩ := h
    exact ih (own_step O hp.1 e1) (hp.2 s1 e1) e2

/-- A `populate` that reads the nil channel does so for ever, and its store gets nothing any more. -/
theorem nil_run {as : List Act} {s s' : L} {i : Nat} (hi : s.pops[i]? = some (some none)) (h : run s as = some s') : s'.pops[i]? = some (some none) ∧ s'.applied i = s.applied i := by
  induction as generalizing s with
  | nil => simp only [run, Option.some.injEq] at h; subst h; exact ⟨hi, rfl⟩
  | cons a as ih =>
    simp only [run, Option.bind_eq_some_iff] at h
    obtain ⟨s1, e1, e2⟩ := h
    have hlt := (List.getElem?_eq_some_iff.1 hi).1
    suffices h3 : s1.pops[i]? = some (some none) ∧ s1.applied i = s.applied i by
      have := ih h3.1 e2
      exact ⟨this.1, this.2.trans h3.2⟩
    cases a with
    | prep => simp only [step, Option.some.injEq] at e1; subst e1; exact ⟨by show (s.pops ++ [none])[i]? = _; rw [List.getElem?_append_left hlt]; exact hi, rfl⟩
    | kill => simp only [step, Option.some.injEq] at e1; subst e1; exact ⟨hi, rfl⟩
    | start j =>
      simp only [step] at e1
      split at e1
      · rename_i hj
        simp only [Option.some.injEq] at e1; subst e1
        refine ⟨?_, rfl⟩
        rw [List.getElem?_set, if_neg]
        · exact hi
        · rintro rfl; exact absurd (hi.symm.trans hj) (by simp)
      · simp at e1
    | add r =>
      simp only [step] at e1
      split at e1
      · simp only [Option.some.injEq] at e1; subst e1; exact ⟨hi, rfl⟩
      · simp at e1
    | take j =>
      simp only [step] at e1
      split at e1
      · rename_i b hj
        split at e1
        · simp only [Option.some.injEq] at e1; subst e1
          refine ⟨hi, upd_ne _ _ ?_⟩
          rintro rfl; exact absurd (hi.symm.trans hj) (by simp)
        · simp at e1
      · simp at e1

end Verif.Sync.Late
