import Verif.Batcher.Progress
import Verif.Flush.Spec
/-
What one step of the batcher does to one executor and to the list of pending items.
-/
namespace Verif.Flush

open Verif.Batcher

set_option linter.unusedSectionVars false

variable {K : Type} [DecidableEq K]

/-! ### Adding items to an executor that is not executing -/

/-- What adding any number of items does to an executor which is not executing. -/
structure Grow (e e' : Exec K) : Prop where
  late : e'.late = e.late
  items : ∀ x ∈ e.items, x ∈ e'.items
  noops : ∀ x ∈ e.noops, x ∈ e'.noops
  idle : e'.executing = false → e'.gos = e.gos ∧
    (size e' = size e ∧ e'.timer = e.timer ∨ 0 < size e' ∧ e'.timer = if e.timer = .nil then .armed else e.timer)
  busy : e'.executing = true → e'.timer = .nil ∧ e'.gos = e.gos ++ [.queued]

theorem Grow.refl {e : Exec K} (h : e.executing = false) : Grow e e :=
  ⟨rfl, fun _ h => h, fun _ h => h, fun _ => ⟨rfl, .inl ⟨rfl, rfl⟩⟩, fun h' => by rw [h] at h'; simp at h'⟩

theorem Grow.trans {e e' e'' : Exec K} (h : Grow e e') (h1 : e'.executing = true → e'' = e') (h2 : e'.executing = false → Grow e' e'') :
    Grow e e'' := by
  cases he : e'.executing with
  | true => rw [h1 he]; exact h
  | false =>
    have g := h2 he
    have hi := h.idle he
    refine ⟨g.late.trans h.late, fun x hx => g.items x (h.items x hx), fun x hx => g.noops x (h.noops x hx), fun h' => ?_, fun h' => ?_⟩
    · obtain ⟨g1, g2⟩ := g.idle h'
      refine ⟨g1.trans hi.1, ?_⟩
      rcases hi.2 with ⟨a, b⟩ | ⟨a, b⟩ <;> rcases g2 with ⟨c, d⟩ | ⟨c, d⟩
      · exact .inl ⟨c.trans a, d.trans b⟩
      · right; rw [b] at d; exact ⟨c, d⟩
      · right; exact ⟨by omega, d.trans b⟩
      · right; refine ⟨c, ?_⟩
        rw [d, b]; split <;> simp_all
    · obtain ⟨g1, g2⟩ := g.busy h'
      exact ⟨g1, by rw [g2, hi.1]⟩

theorem addE_grow {max : Nat} {e : Exec K} (x : Item K) (h : e.executing = false) : Grow e (addE max e x) := by
  refine ⟨?_, ?_, ?_, ?_, ?_⟩
  · unfold addE; split
    · exact add_late e x
    · split <;> exact add_late e x
  · intro y hy; rw [addE_items]; simp [hy]
  · intro y hy; rw [addE_noops]; simp [hy]
  · intro h'
    have hl := add_len e x
    unfold addE at h' ⊢
    split at h'
    · simp at h'
    · rename_i hne
      rw [if_neg hne]
      have ht := add_timer e x
      have hg := add_gos e x
      split
      · rename_i hn
        refine ⟨hg, .inr ⟨by simp only [size]; omega, ?_⟩⟩
        rw [ht] at hn; simp [hn]
      · rename_i hn
        refine ⟨hg, .inr ⟨by simp only [size]; omega, ?_⟩⟩
        rw [ht] at hn ⊢; simp [hn]
  · intro h'
    unfold addE at h' ⊢
    split at h'
    · rename_i heq
      rw [if_pos heq]
      exact ⟨rfl, by simp only [add_gos]⟩
    · exfalso
      split at h' <;> · simp only [add_executing] at h'; rw [h] at h'; simp at h'

theorem execFor_idle {s : State K} {x : Item K} {i : Nat} (h : execFor s x = some i) : (s.execs i).executing = false := by
  unfold execFor at h
  split at h
  · split at h
    · simp at h
    · rename_i he
      simp only [Option.some.injEq] at h
      subst h; simpa using he
  · simpa using List.find?_some h

theorem execFor_assign {s : State K} {x : Item K} {i j : Nat} (h : execFor s x = some i) (hj : s.assign x.key = some j) : j = i := by
  unfold execFor at h
  rw [hj] at h
  simp only at h
  split at h
  · simp at h
  · simpa using h

/-- What a sequence of additions does to every executor, and that it does not move keys. -/
structure Adds (s s' : State K) : Prop where
  n : s'.n = s.n
  done : s'.done = s.done
  added : s'.added = s.added
  busy : ∀ i, (s.execs i).executing = true → s'.execs i = s.execs i
  idle : ∀ i, (s.execs i).executing = false → Grow (s.execs i) (s'.execs i)
  assign : ∀ k i, s.assign k = some i → s'.assign k = some i

theorem Adds.refl (s : State K) : Adds s s :=
  ⟨rfl, rfl, rfl, fun _ _ => rfl, fun _ h => .refl h, fun _ _ h => h⟩

theorem Adds.trans {a b c : State K} (h : Adds a b) (g : Adds b c) : Adds a c := by
  refine ⟨g.n.trans h.n, g.done.trans h.done, g.added.trans h.added, fun i hi => ?_, fun i hi => ?_, fun k i hk => g.assign k i (h.assign k i hk)⟩
  · have := h.busy i hi
    rw [g.busy i (by rw [this]; exact hi), this]
  · exact (h.idle i hi).trans (fun he => g.busy i he) (fun he => g.idle i he)

theorem Adds.pend {s s' : State K} (h : Adds s s') (P : List (Item K)) : Adds s { s' with pending := P } :=
  ⟨h.n, h.done, h.added, h.busy, h.idle, h.assign⟩

theorem adds_addTo {s : State K} {x : Item K} {i : Nat} (h : execFor s x = some i) : Adds s (addTo s x i) := by
  have hr := execFor_idle h
  rw [addTo_eq hr]
  refine ⟨rfl, rfl, rfl, fun j hj => ?_, fun j hj => ?_, fun k j hk => ?_⟩
  · have : j ≠ i := by rintro rfl; rw [hr] at hj; simp at hj
    exact upd_ne _ _ this
  · change Grow (s.execs j) (upd s.execs i _ j)
    by_cases hji : j = i
    · subst hji; rw [upd_self]; exact addE_grow x hr
    · rw [upd_ne _ _ hji]; exact .refl hj
  · change upd s.assign x.key (some i) k = some j
    by_cases hkx : k = x.key
    · subst hkx; rw [upd_self, execFor_assign h hk]
    · rw [upd_ne _ _ hkx]; exact hk

theorem adds_flushLoop (s : State K) (kept rest : List (Item K)) :
    Adds s (flushLoop s kept rest) ∧ (flushLoop s kept rest).pending.Sublist (kept ++ rest) := by
  induction rest generalizing s kept with
  | nil => simp only [flushLoop]; exact ⟨(Adds.refl s).pend _, by simp⟩
  | cons x rest ih =>
    simp only [flushLoop]
    cases he : execFor s x with
    | none =>
      simp only
      have := ih s (kept ++ [x])
      simpa using this
    | some i =>
      simp only
      have ha := adds_addTo he
      have hsub : (kept ++ rest).Sublist (kept ++ x :: rest) := (List.sublist_cons_self x rest).append_left kept
      split
      · exact ⟨ha.pend _, hsub⟩
      · have := ih (addTo s x i) kept
        exact ⟨ha.trans this.1, this.2.trans hsub⟩

/-! ### One step -/

/-- The goroutine of executor `i` ends with this step. -/
def Ends (s : State K) (l : Batcher.Label K) (i : Nat) : Prop := l = .go i 0 ∧ (s.execs i).gos = [.nooping []]

/-- Executor `e` after `reset`. -/
def cleared (e : Exec K) : Exec K := { e with items := [], noops := [], executing := false, gos := [] }

/-- What a step does to an executor. -/
structure Eff (s s' : State K) (l : Batcher.Label K) (i : Nat) : Prop where
  idle : (s.execs i).executing = false →
    (l = .fire i ∧ (s.execs i).timer = .armed ∧ s'.execs i = { s.execs i with timer := .fired, late := (s.execs i).late + 1 }) ∨
    (l = .flush i ∧ (s.execs i).late = (s'.execs i).late + 1 ∧
      s'.execs i = { s.execs i with late := (s'.execs i).late, executing := true, timer := .nil, gos := [.queued] }) ∨
    (l ≠ .fire i ∧ l ≠ .flush i ∧ Grow (s.execs i) (s'.execs i))
  busy : (s.execs i).executing = true → ¬ Ends s l i →
    (s'.execs i).executing = true ∧ (s'.execs i).timer = .nil ∧ (s'.execs i).items = (s.execs i).items ∧ (s'.execs i).noops = (s.execs i).noops ∧
    (.queued ∈ (s'.execs i).gos → .queued ∈ (s.execs i).gos) ∧
    (l = .flush i ∧ (s.execs i).late = (s'.execs i).late + 1 ∨ l ≠ .flush i ∧ (s'.execs i).late = (s.execs i).late) ∧
    ∀ x, x ∈ (s.execs i).unfinished ∨ x ∈ (s.execs i).unnooped → (x ∈ (s'.execs i).unfinished ∨ x ∈ (s'.execs i).unnooped) ∨ x ∈ s'.done
  ends : (s.execs i).executing = true → Ends s l i → Grow (cleared (s.execs i)) (s'.execs i)

theorem eff_adds {s s' : State K} {l : Batcher.Label K} {i : Nat} (S : Str s) (h : Adds s s') (h1 : l ≠ .fire i) (h2 : l ≠ .flush i)
    (h3 : ¬ Ends s l i) : Eff s s' l i := by
  refine ⟨fun hi => .inr (.inr ⟨h1, h2, h.idle i hi⟩), fun hi _ => ?_, fun _ he => absurd he h3⟩
  rw [h.busy i hi]
  exact ⟨hi, (S.eok i).untimed hi, rfl, rfl, fun h => h, .inr ⟨h2, rfl⟩, fun x hx => .inl hx⟩

theorem adds_congr {s s' : State K} (h1 : s'.n = s.n) (h2 : s'.done = s.done) (h3 : s'.added = s.added) (h4 : s'.execs = s.execs) (h5 : s'.assign = s.assign) :
    Adds s s' :=
  ⟨h1, h2, h3, fun i _ => by rw [h4], fun i hi => by rw [h4]; exact .refl hi, fun k i hk => by rw [h5]; exact hk⟩

end Verif.Flush
