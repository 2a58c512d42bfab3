import Mathlib.Tactic.Common
/-
`kill` in small steps (`streams/state_store_consumer.go:76-81`): no lock protects the field `buffer`. It is called by `cancelPartition` and `stop` (which hold the lock of the consumer,
277-282 and 300-306) and by `populate` at the end of a synchronisation (146-163, without the lock); `prep` (132-144) makes a new channel.

Simplification: a read or a write of the field is one step, as with sequentially consistent memory.
-/
namespace Verif.Sync.Kill

/-- Where a goroutine is in `kill`: outside; the check in line 77 passed; `close` in line 78 done. `streams/state_store_consumer.go:76-81`. -/
inductive Pc where
  | out
  | checked
  | closed
  deriving DecidableEq, Repr

/-- The field `buffer` with the channels made so far, which of them are closed, the goroutines, and whether the process has panicked. `streams/state_store_consumer.go:50-60,76-81`. -/
structure K where
  buffer : Option Nat
  made : Nat
  closed : List Nat
  pc : Nat → Pc
  panic : Bool

/-- A partition as `newStateStoreConsumer` makes it, with the channel of line 236. `streams/state_store_consumer.go:230-237`. -/
def K.init : K := { buffer := some 0, made := 1, closed := [], pc := fun _ => .out, panic := false }

/-- What can happen. `streams/state_store_consumer.go:76-81,132-136`. -/
inductive Act where
  /-- goroutine `t` enters `kill` and looks at the field, `streams/state_store_consumer.go:77` -/
  | check (t : Nat)
  /-- it closes what the field holds now, `streams/state_store_consumer.go:78` -/
  | close (t : Nat)
  /-- it clears the field, `streams/state_store_consumer.go:79` -/
  | clear (t : Nat)
  /-- `prep` makes a new channel, `streams/state_store_consumer.go:136` -/
  | prep

/-- Function update. `streams/state_store_consumer.go:76-81`. -/
def upd (f : Nat → Pc) (t : Nat) (v : Pc) : Nat → Pc := fun u => if u = t then v else f u

/-- One step; after a panic nothing happens any more. `streams/state_store_consumer.go:76-81,136`. -/
def step (k : K) : Act → Option K
  | .check t =>
    if k.panic ∨ k.pc t ≠ .out then none
    else if k.buffer = none then some k else some { k with pc := upd k.pc t .checked }
  | .close t =>
    if k.panic ∨ k.pc t ≠ .checked then none
    else match k.buffer with
      | none => some { k with panic := true }
      | some b => if b ∈ k.closed then some { k with panic := true } else some { k with closed := k.closed ++ [b], pc := upd k.pc t .closed }
  | .clear t =>
    if k.panic ∨ k.pc t ≠ .closed then none
    else some { k with buffer := none, pc := upd k.pc t .out }
  | .prep => if k.panic then none else some { k with buffer := some k.made, made := k.made + 1 }

/-- Several steps. `streams/state_store_consumer.go:76-81,136`. -/
def run (k : K) : List Act → Option K
  | [] => some k
  | a :: as => (step k a).bind fun k' => run k' as

/-! ### One at a time -/

/-- Whose step it is; `prep` is made by somebody else. -/
def who : Act → Option Nat
  | .check t | .close t | .clear t => some t
  | .prep => none

/-- `kill` and `prep` never overlap: when a goroutine is inside `kill`, the next step is its own. -/
def OneAtATime : K → List Act → Prop
  | _, [] => True
  | k, a :: as => (∀ t, k.pc t ≠ .out → who a = some t) ∧ ∀ k', step k a = some k' → OneAtATime k' as

/-- Everything as it should be. -/
structure Fine (k : K) : Prop where
  ok : k.panic = false
  lt : ∀ b, k.buffer = some b → b < k.made
  cl : ∀ b ∈ k.closed, b < k.made
  opn : ∀ b, k.buffer = some b → b ∈ k.closed → ∃ t, k.pc t = .closed
  chk : ∀ t, k.pc t = .checked → ∃ b, k.buffer = some b ∧ b ∉ k.closed
  one : ∀ t u, k.pc t ≠ .out → k.pc u ≠ .out → t = u

theorem fine_init : Fine K.init := by
  constructor <;> simp [K.init]

theorem fine_step {k k' : K} {a : Act} (F : Fine k) (ho : ∀ t, k.pc t ≠ .out → who a = some t) (h : step k a = some k') : Fine k' := by
  obtain ⟨ok, lt, cl, opn, chk, one⟩ := F
  have self : ∀ (f : Nat → Pc) t v, upd f t v t = v := fun f t v => by simp [upd]
  have ne : ∀ (f : Nat → Pc) t v u, u ≠ t → upd f t v u = f u := fun f t v u hu => by simp [upd, hu]
  cases a with
  | check t =>
    have hall : ∀ u, u ≠ t → k.pc u = .out := fun u hu => by
      by_contra hc
      have := ho u hc
      simp only [who, Option.some.injEq] at this
      exact hu this.symm
    simp only [step] at h
    split at h
    · simp at h
    · rename_i hn
      split at h
      · simp only [Option.some.injEq] at h; subst h; exact ⟨ok, lt, cl, opn, chk, one⟩
      · rename_i hb
        simp only [Option.some.injEq] at h; subst h
        have ht : k.pc t = .out := by
          by_contra hc; exact hn (.inr hc)
        refine ⟨ok, lt, cl, fun b hb hc => ?_, fun _ _ => ?_, fun u v hu hv => ?_⟩
        · obtain ⟨u, hu⟩ := opn b hb hc
          by_cases hut : u = t
          · subst hut; rw [ht] at hu; simp at hu
          · rw [hall u hut] at hu; simp at hu
        · obtain ⟨b, hb⟩ := Option.ne_none_iff_exists'.1 hb
          refine ⟨b, hb, fun hc => ?_⟩
          obtain ⟨w, hw⟩ := opn b hb hc
          by_cases hut : w = t
          · subst hut; rw [ht] at hw; simp at hw
          · rw [hall w hut] at hw; simp at hw
        · have h1 : u = t := by
            by_contra hc; exact hu (by show upd k.pc t .checked u = .out; rw [ne _ _ _ _ hc]; exact hall u hc)
          have h2 : v = t := by
            by_contra hc; exact hv (by show upd k.pc t .checked v = .out; rw [ne _ _ _ _ hc]; exact hall v hc)
          rw [h1, h2]
  | close t =>
    simp only [step] at h
    split at h
    · simp at h
    · rename_i hn
      have ht : k.pc t = .checked := by by_contra hc; exact hn (.inr hc)
      have hall : ∀ u, u ≠ t → k.pc u = .out := fun u hu => by
        by_contra hc
        exact hu (one u t hc (by rw [ht]; simp))
      obtain ⟨b, hb, hbc⟩ := chk t ht
      rw [hb] at h
      simp only [if_neg hbc, Option.some.injEq] at h; subst h
      refine ⟨ok, fun c hc => lt c (hb.trans hc), fun c hc => ?_, fun c hc _ => ⟨t, self _ _ _⟩, fun u hu => ?_, fun u v hu hv => ?_⟩
      · rcases List.mem_append.1 hc with hc | hc
        · exact cl c hc
        · rw [List.mem_singleton.1 hc]; exact lt b hb
      · by_cases hut : u = t
        · subst hut
          have hu' : upd k.pc u .closed u = .checked := hu
          rw [self] at hu'; simp at hu'
        · have hu' : upd k.pc t .closed u = .checked := hu
          rw [ne _ _ _ _ hut, hall u hut] at hu'; simp at hu'
      · have h1 : u = t := by
          by_contra hc; exact hu (by show upd k.pc t .closed u = .out; rw [ne _ _ _ _ hc]; exact hall u hc)
        have h2 : v = t := by
          by_contra hc; exact hv (by show upd k.pc t .closed v = .out; rw [ne _ _ _ _ hc]; exact hall v hc)
        rw [h1, h2]
  | clear t =>
    simp only [step] at h
    split at h
    · simp at h
    · rename_i hn
      have ht : k.pc t = .closed := by by_contra hc; exact hn (.inr hc)
      have hall : ∀ u, u ≠ t → k.pc u = .out := fun u hu => by
        by_contra hc
        exact hu (one u t hc (by rw [ht]; simp))
      simp only [Option.some.injEq] at h; subst h
      have hout : ∀ u, upd k.pc t .out u = .out := fun u => by
        by_cases hut : u = t
        · subst hut; exact self _ _ _
        · rw [ne _ _ _ _ hut]; exact hall u hut
      refine ⟨ok, fun b hb => by simp at hb, cl, fun b hb => by simp at hb, fun u hu => ?_, fun u v hu _ => absurd (hout u) hu⟩
      have hu' : upd k.pc t .out u = .checked := hu
      rw [hout u] at hu'
      simp at hu'
  | prep =>
    have hall : ∀ u, k.pc u = .out := fun u => by
      by_contra hc
      have := ho u hc
      simp [who] at this
    simp only [step] at h
    split at h
    · simp at h
    · simp only [Option.some.injEq] at h; subst h
      refine ⟨ok, fun b hb => ?_, fun b hb => Nat.lt_succ_of_lt (cl b hb), fun b hb hc => ?_, fun u hu => ?_, one⟩
      · simp only [Option.some.injEq] at hb; subst hb; exact Nat.lt_succ_self _
      · simp only [Option.some.injEq] at hb; subst hb; exact absurd (cl _ hc) (Nat.lt_irrefl _)
      · have hu' : k.pc u = .checked := hu
        rw [hall u] at hu'; simp at hu'

theorem fine_run {as : List Act} {k k' : K} (F : Fine k) (ho : OneAtATime k as) (h : run k as = some k') : Fine k' := by
  induction as generalizing k with
  | nil => simp only [run, Option.some.injEq] at h; subst h; exact F
  | cons a as ih =>
    simp only [run, Option.bind_eq_some_iff] at h
    obtain ⟨k1, e1, e2⟩ := h
    exact ih (fine_step F ho.1 e1) (ho.2 k1 e1) e2

/-- A channel that the field does not name is never reached again. -/
theorem unreachable_run {as : List Act} {k k' : K} {b : Nat} (hm : b < k.made) (hb : k.buffer ≠ some b) (hc : b ∉ k.closed) (h : run k as = some k') :
    k'.buffer ≠ some b ∧ b ∉ k'.closed := by
  induction as generalizing k with
  | nil => simp only [run, Option.some.injEq] at h; subst h; exact ⟨hb, hc⟩
  | cons a as ih =>
    simp only [run, Option.bind_eq_some_iff] at h
    obtain ⟨k1, e1, e2⟩ := h
    suffices h3 : b < k1.made ∧ k1.buffer ≠ some b ∧ b ∉ k1.closed from ih h3.1 h3.2.1 h3.2.2 e2
    cases a <;> simp only [step] at e1 <;> (repeat' split at e1) <;> first
      | (simp at e1; done)
      | (simp only [Option.some.injEq] at e1; subst e1; exact ⟨hm, hb, hc⟩)
      | (simp only [Option.some.injEq] at e1; subst e1; refine ⟨by dsimp only; omega, ?_, ?_⟩ <;> simp_all <;> omega)

end Verif.Sync.Kill
