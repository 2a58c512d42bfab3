import Verif.Batcher.Proofs
import Mathlib.Data.List.Nodup
import Mathlib.Data.List.Perm.Subperm
/-
Accounting of the batches: items are unique, none is lost, counters and callbacks.
-/
namespace Verif.Batcher

set_option linter.unusedSectionVars false

variable {K : Type} [DecidableEq K]

/-- The fields which moving items between the pending list and the executors leaves alone. -/
structure Same (s s' : State K) : Prop where
  adders : s'.adders = s.adders
  batches : s'.batches = s.batches
  completed : s'.completed = s.completed
  added : s'.added = s.added
  calls : s'.calls = s.calls
  done : s'.done = s.done
  called : s'.called = s.called
  n : s'.n = s.n
  maxSize : s'.maxSize = s.maxSize

theorem Same.refl (s : State K) : Same s s := ⟨rfl, rfl, rfl, rfl, rfl, rfl, rfl, rfl, rfl⟩

theorem Same.trans {a b c : State K} (h : Same a b) (g : Same b c) : Same a c :=
  ⟨g.adders.trans h.adders, g.batches.trans h.batches, g.completed.trans h.completed, g.added.trans h.added, g.calls.trans h.calls,
   g.done.trans h.done, g.called.trans h.called, g.n.trans h.n, g.maxSize.trans h.maxSize⟩

theorem same_condExec (s : State K) (i : Nat) : Same s (condExec s i) := by
  unfold condExec; split <;> exact ⟨rfl, rfl, rfl, rfl, rfl, rfl, rfl, rfl, rfl⟩

theorem same_addTo (s : State K) (x : Item K) (i : Nat) : Same s (addTo s x i) := by
  have h : Same s (place s x i) := ⟨rfl, rfl, rfl, rfl, rfl, rfl, rfl, rfl, rfl⟩
  refine h.trans ?_
  unfold addTo arm
  split
  · exact same_condExec _ _
  · split <;> exact ⟨rfl, rfl, rfl, rfl, rfl, rfl, rfl, rfl, rfl⟩

theorem same_flushLoop (s : State K) (kept rest : List (Item K)) : Same s (flushLoop s kept rest) := by
  induction rest generalizing s kept with
  | nil => exact ⟨rfl, rfl, rfl, rfl, rfl, rfl, rfl, rfl, rfl⟩
  | cons x rest ih =>
    simp only [flushLoop]
    split
    · split
      · exact (same_addTo s x _).trans ⟨rfl, rfl, rfl, rfl, rfl, rfl, rfl, rfl, rfl⟩
      · exact (same_addTo s x _).trans (ih _ _)
    · exact ih _ _

theorem same_finish (s : State K) (i j : Nat) : Same s (finish s i j) := by
  unfold finish flushPending
  have h : Same s (reset { s with count := s.count - 1, execs := upd s.execs i { s.execs i with gos := (s.execs i).gos.eraseIdx j } } i) :=
    ⟨rfl, rfl, rfl, rfl, rfl, rfl, rfl, rfl, rfl⟩
  split
  · exact h
  · exact h.trans (same_flushLoop _ _ _)

/-- All items of a batch have been completed. -/
def AllDone (s : State K) (b : Nat) : Prop := ∃ B, s.batches b = some B ∧ ∀ x ∈ B.itemsToAdd, x ∈ s.done

/-- Accounting invariant. -/
structure Acc (s : State K) : Prop where
  owner : ∀ x ∈ s.added, ∃ B, s.batches x.batch = some B ∧ x ∈ B.itemsToAdd
  ownerA : ∀ t, ∀ x ∈ s.adders t, ∃ B, s.batches x.batch = some B ∧ x ∈ B.itemsToAdd
  nodup : s.added.Nodup
  nodupA : ∀ t, (s.adders t).Nodup
  fresh : ∀ t, ∀ x ∈ s.adders t, x ∉ s.added
  apart : ∀ t t', t ≠ t' → ∀ x ∈ s.adders t, x ∉ s.adders t'
  ids : ∀ b B, s.batches b = some B → B.id = b
  all : ∀ b B, s.batches b = some B → ∀ x ∈ B.itemsToAdd, x ∈ s.added ∨ ∃ t, x ∈ s.adders t
  counter : ∀ b, s.completed b = (s.done.filter fun x => decide (x.batch = b ∧ x.noop = false)).length
  once : s.called.Nodup
  callback : ∀ b, b ∈ s.called ↔ AllDone s b

/-! ### Items of a batch -/

theorem items_batch {B : Batch K} {x : Item K} (h : x ∈ B.itemsToAdd) : x.batch = B.id := by
  unfold Batch.itemsToAdd at h
  split at h
  · simp only [List.mem_singleton] at h; rw [h]
  · rw [List.mem_mapIdx] at h
    obtain ⟨i, hi, rfl⟩ := h
    rfl

theorem items_noop {B : Batch K} {x : Item K} (h : x ∈ B.itemsToAdd) : x.noop = true ↔ B.keys = [] := by
  unfold Batch.itemsToAdd at h
  split at h
  · rename_i hk; simp only [List.mem_singleton] at h; simp [h, hk]
  · rename_i hk
    rw [List.mem_mapIdx] at h
    obtain ⟨i, hi, rfl⟩ := h
    simp [hk]

theorem items_nodup (B : Batch K) : B.itemsToAdd.Nodup := by
  unfold Batch.itemsToAdd
  split
  · simp
  · rw [List.nodup_iff_getElem?_ne_getElem?]
    intro i j hij hj
    rw [List.length_mapIdx] at hj
    rw [List.getElem?_mapIdx, List.getElem?_mapIdx, List.getElem?_eq_getElem (by omega), List.getElem?_eq_getElem hj]
    simp only [Option.map_some, ne_eq, Option.some.injEq, Item.mk.injEq, not_and]
    omega

theorem items_length {B : Batch K} (h : B.keys ≠ []) : B.itemsToAdd.length = B.keys.length := by
  unfold Batch.itemsToAdd
  rw [if_neg h, List.length_mapIdx]

theorem items_ne (B : Batch K) : B.itemsToAdd ≠ [] := by
  unfold Batch.itemsToAdd
  split
  · simp
  · rename_i h; simp [h]

/-! ### What has been completed was added, once -/

theorem prefix_count {H R P A : List (Item K)} {k : K} {c : Bool} (h : A = H.filter (cls k c) ++ R ++ P) (x : Item K) (hx : x.key = k ∧ x.noop = c)
    (hA : A.count x ≤ 1) : H.count x ≤ 1 := by
  rw [h, List.count_append, List.count_append, List.count_filter (by simp [cls, hx])] at hA
  omega

theorem done_nodup {s : State K} {P : List (Item K)} (I : Inv s P) (hn : s.added.Nodup) : s.done.Nodup := by
  rw [List.nodup_iff_count_le_one]
  intro x
  have hA : (s.added.filter (cls x.key x.noop)).count x ≤ 1 := by
    rw [List.count_filter (by simp [cls])]
    exact List.nodup_iff_count_le_one.1 hn x
  cases hx : x.noop with
  | false => rw [hx] at hA; exact prefix_count (I.finished x.key) x ⟨rfl, hx⟩ hA
  | true => rw [hx] at hA; exact prefix_count (I.nooped x.key) x ⟨rfl, hx⟩ hA

theorem done_added {s : State K} {P : List (Item K)} (I : Inv s P) {x : Item K} (h : x ∈ s.done) : x ∈ s.added := by
  have : x ∈ s.added.filter (cls x.key x.noop) := by
    cases hx : x.noop with
    | false => rw [I.finished x.key]; simp [h, cls, hx]
    | true => rw [I.nooped x.key]; simp [h, cls, hx]
  exact (List.mem_filter.1 this).1

/-! ### Steps -/

theorem acc_init (max n : Nat) : Acc (init K max n) := by
  constructor <;> simp [init, AllDone]

/-- Steps that leave everything relevant alone. -/
theorem acc_same {s s' : State K} (A : Acc s) (h1 : s'.adders = s.adders) (h2 : s'.batches = s.batches) (h3 : s'.completed = s.completed)
    (h4 : s'.added = s.added) (h5 : s'.done = s.done) (h6 : s'.called = s.called) : Acc s' := by
  constructor
  · rw [h4, h2]; exact A.owner
  · rw [h1, h2]; exact A.ownerA
  · rw [h4]; exact A.nodup
  · rw [h1]; exact A.nodupA
  · rw [h1, h4]; exact A.fresh
  · rw [h1]; exact A.apart
  · rw [h2]; exact A.ids
  · rw [h2, h4, h1]; exact A.all
  · rw [h3, h5]; exact A.counter
  · rw [h6]; exact A.once
  · intro b; unfold AllDone; rw [h6, h2, h5]; exact A.callback b

theorem addOne_fields (s : State K) (x : Item K) :
    (addOne s x).adders = s.adders ∧ (addOne s x).batches = s.batches ∧ (addOne s x).completed = s.completed ∧
    (addOne s x).added = s.added ++ [x] ∧ (addOne s x).done = s.done ∧ (addOne s x).called = s.called := by
  unfold addOne
  simp only
  split
  · rename_i i _
    have := same_addTo { s with added := s.added ++ [x] } x i
    exact ⟨this.adders, this.batches, this.completed, this.added, this.done, this.called⟩
  · exact ⟨rfl, rfl, rfl, rfl, rfl, rfl⟩

theorem acc_add {s : State K} (A : Acc s) {t : Nat} {x : Item K} {r : List (Item K)} (h : s.adders t = x :: r) :
    Acc (addOne { s with adders := upd s.adders t r } x) := by
  obtain ⟨h1, h2, h3, h4, h5, h6⟩ := addOne_fields { s with adders := upd s.adders t r } x
  have hsub : ∀ t', ∀ y ∈ upd s.adders t r t', y ∈ s.adders t' := by
    intro t' y hy
    by_cases e : t' = t
    · subst e; rw [upd_self] at hy; rw [h]; exact List.mem_cons_of_mem _ hy
    · rw [upd_ne _ _ e] at hy; exact hy
  have hxt : x ∈ s.adders t := by rw [h]; simp
  constructor
  · rw [h4, h2]
    intro y hy
    rcases List.mem_append.1 hy with hy | hy
    · exact A.owner y hy
    · rw [List.mem_singleton] at hy; subst hy; exact A.ownerA t y hxt
  · rw [h1, h2]
    intro t' y hy
    exact A.ownerA t' y (hsub t' y hy)
  · rw [h4]
    rw [List.nodup_append]
    refine ⟨A.nodup, by simp, ?_⟩
    intro a ha b hb hab
    rw [List.mem_singleton] at hb
    subst hab; subst hb
    exact A.fresh t a hxt ha
  · rw [h1]
    intro t'
    change (upd s.adders t r t').Nodup
    by_cases e : t' = t
    · subst e; rw [upd_self]
      have := A.nodupA t'
      rw [h] at this
      exact (List.nodup_cons.1 this).2
    · rw [upd_ne _ _ e]; exact A.nodupA t'
  · rw [h1, h4]
    intro t' y hy hadd
    rcases List.mem_append.1 hadd with hadd | hadd
    · exact A.fresh t' y (hsub t' y hy) hadd
    · rw [List.mem_singleton] at hadd
      subst hadd
      by_cases e : t' = t
      · subst e
        have hy' : y ∈ upd s.adders t' r t' := hy
        rw [upd_self] at hy'
        have := A.nodupA t'
        rw [h] at this
        exact (List.nodup_cons.1 this).1 hy'
      · exact A.apart t' t e y (hsub t' y hy) hxt
  · rw [h1]
    intro t1 t2 hne y hy hy2
    exact A.apart t1 t2 hne y (hsub t1 y hy) (hsub t2 y hy2)
  · rw [h2]; exact A.ids
  · rw [h2, h4, h1]
    intro b B hB y hy
    rcases A.all b B hB y hy with h | ⟨t', ht'⟩
    · exact .inl (List.mem_append_left _ h)
    · by_cases e : t' = t
      · subst e
        rw [h] at ht'
        rcases List.mem_cons.1 ht' with h' | h'
        · subst h'; left; simp
        · right; refine ⟨t', ?_⟩; change y ∈ upd s.adders t' r t'; rw [upd_self]; exact h'
      · right; refine ⟨t', ?_⟩; change y ∈ upd s.adders t r t'; rw [upd_ne _ _ e]; exact ht'
  · rw [h3, h5]; exact A.counter
  · rw [h6]; exact A.once
  · intro b; unfold AllDone; rw [h6, h2, h5]; exact A.callback b

theorem acc_call {s : State K} {P : List (Item K)} (I : Inv s P) (A : Acc s) {t : Nat} {B : Batch K} (h1 : s.adders t = []) (h2 : s.batches B.id = none) :
    Acc { s with adders := upd s.adders t B.itemsToAdd, batches := upd s.batches B.id (some B) } := by
  have hkeep : ∀ b B', s.batches b = some B' → upd s.batches B.id (some B) b = some B' := by
    intro b B' hb
    rw [upd_ne]
    · exact hb
    · rintro rfl; rw [h2] at hb; simp at hb
  have hnew : ∀ x ∈ B.itemsToAdd, x ∉ s.added ∧ ∀ t', x ∉ s.adders t' := by
    intro x hx
    have hb := items_batch hx
    refine ⟨fun ha => ?_, fun t' ha => ?_⟩
    · obtain ⟨B', hB', _⟩ := A.owner x ha
      rw [hb, h2] at hB'; simp at hB'
    · obtain ⟨B', hB', _⟩ := A.ownerA t' x ha
      rw [hb, h2] at hB'; simp at hB'
  constructor
  · intro x hx
    obtain ⟨B', hB', hx'⟩ := A.owner x hx
    exact ⟨B', hkeep _ _ hB', hx'⟩
  · intro t' x hx
    change x ∈ upd s.adders t B.itemsToAdd t' at hx
    by_cases e : t' = t
    · subst e; rw [upd_self] at hx
      refine ⟨B, ?_, hx⟩
      change upd s.batches B.id (some B) x.batch = some B
      rw [items_batch hx, upd_self]
    · rw [upd_ne _ _ e] at hx
      obtain ⟨B', hB', hx'⟩ := A.ownerA t' x hx
      exact ⟨B', hkeep _ _ hB', hx'⟩
  · exact A.nodup
  · intro t'
    change (upd s.adders t B.itemsToAdd t').Nodup
    by_cases e : t' = t
    · subst e; rw [upd_self]; exact items_nodup B
    · rw [upd_ne _ _ e]; exact A.nodupA t'
  · intro t' x hx
    change x ∈ upd s.adders t B.itemsToAdd t' at hx
    by_cases e : t' = t
    · subst e; rw [upd_self] at hx; exact (hnew x hx).1
    · rw [upd_ne _ _ e] at hx; exact A.fresh t' x hx
  · intro t1 t2 hne x hx hx2
    change x ∈ upd s.adders t B.itemsToAdd t1 at hx
    change x ∈ upd s.adders t B.itemsToAdd t2 at hx2
    by_cases e1 : t1 = t
    · subst e1
      rw [upd_self] at hx
      rw [upd_ne _ _ (Ne.symm hne)] at hx2
      exact (hnew x hx).2 t2 hx2
    · rw [upd_ne _ _ e1] at hx
      by_cases e2 : t2 = t
      · subst e2; rw [upd_self] at hx2; exact (hnew x hx2).2 t1 hx
      · rw [upd_ne _ _ e2] at hx2; exact A.apart t1 t2 hne x hx hx2
  · intro b B' hb
    change upd s.batches B.id (some B) b = some B' at hb
    by_cases e : b = B.id
    · subst e; rw [upd_self] at hb; simp only [Option.some.injEq] at hb; rw [hb]
    · rw [upd_ne _ _ e] at hb; exact A.ids b B' hb
  · intro b B' hb x hx
    change upd s.batches B.id (some B) b = some B' at hb
    change x ∈ s.added ∨ ∃ t', x ∈ upd s.adders t B.itemsToAdd t'
    by_cases e : b = B.id
    · subst e
      rw [upd_self] at hb; simp only [Option.some.injEq] at hb; subst hb
      right; exact ⟨t, by rw [upd_self]; exact hx⟩
    · rw [upd_ne _ _ e] at hb
      rcases A.all b B' hb x hx with h | ⟨t', ht'⟩
      · exact .inl h
      · right
        refine ⟨t', ?_⟩
        rw [upd_ne]
        · exact ht'
        · rintro rfl; rw [h1] at ht'; simp at ht'
  · exact A.counter
  · exact A.once
  · intro b
    rw [show (b ∈ ({ s with adders := upd s.adders t B.itemsToAdd, batches := upd s.batches B.id (some B) } : State K).called) = (b ∈ s.called) from rfl, A.callback b]
    constructor
    · rintro ⟨B', hB', hx⟩; exact ⟨B', hkeep _ _ hB', hx⟩
    · rintro ⟨B', hB', hx⟩
      change upd s.batches B.id (some B) b = some B' at hB'
      by_cases e : b = B.id
      · subst e
        rw [upd_self] at hB'
        simp only [Option.some.injEq] at hB'
        subst hB'
        obtain ⟨x, hx'⟩ := List.exists_mem_of_ne_nil _ (items_ne B)
        exact absurd (done_added I (hx x hx')) (hnew x hx').1
      · rw [upd_ne _ _ e] at hB'; exact ⟨B', hB', hx⟩

/-- Completing an item: `s'` is the state afterwards, up to the goroutine's program counter. -/
theorem acc_item {s s' : State K} (A : Acc s) {P P' : List (Item K)} (_I : Inv s P) (I' : Inv s' P') {x : Item K} (hx : x.noop = false)
    (h1 : s'.adders = s.adders) (h2 : s'.batches = s.batches) (h3 : s'.completed = upd s.completed x.batch (s.completed x.batch + 1))
    (h4 : s'.added = s.added) (h5 : s'.done = s.done ++ [x])
    (h6 : s'.called = if some (s.completed x.batch + 1) = (s.batches x.batch).map (fun b => b.keys.length) then s.called ++ [x.batch] else s.called) :
    Acc s' := by
  have hnd : s'.done.Nodup := done_nodup I' (by rw [h4]; exact A.nodup)
  have hxa : x ∈ s.added := by
    have : x ∈ s'.done := by rw [h5]; simp
    have := done_added I' this
    rwa [h4] at this
  have hxd : x ∉ s.done := by
    rw [h5, List.nodup_append] at hnd
    intro h
    exact hnd.2.2 x h x (by simp) rfl
  obtain ⟨B, hB, hxB⟩ := A.owner x hxa
  have hBid := A.ids _ _ hB
  have hk : B.keys ≠ [] := by
    intro h
    rw [(items_noop hxB).2 h] at hx
    simp at hx
  have hcount : ∀ b, s'.completed b = (s'.done.filter fun x => decide (x.batch = b ∧ x.noop = false)).length := by
    intro b
    rw [h3, h5, List.filter_append, List.length_append, ← A.counter b]
    by_cases e : b = x.batch
    · subst e; rw [upd_self]; simp [hx]
    · rw [upd_ne _ _ e]; simp [Ne.symm e]
  -- all items are done exactly when the counter reaches the length
  have hfull : (s.completed x.batch + 1 = B.keys.length) ↔ ∀ y ∈ B.itemsToAdd, y ∈ s'.done := by
    have hc := hcount x.batch
    rw [h3, upd_self] at hc
    rw [hc, ← items_length hk]
    have hsub : (s'.done.filter fun y => decide (y.batch = x.batch ∧ y.noop = false)) ⊆ B.itemsToAdd := by
      intro y hy
      rw [List.mem_filter, decide_eq_true_eq] at hy
      have := done_added I' hy.1
      rw [h4] at this
      obtain ⟨B', hB', hy'⟩ := A.owner y this
      rw [hy.2.1, hB] at hB'
      simp only [Option.some.injEq] at hB'
      rw [hB']; exact hy'
    have hnf := hnd.filter (fun y => decide (y.batch = x.batch ∧ y.noop = false))
    constructor
    · intro hl y hy
      have hp := (List.subperm_of_subset hnf hsub).perm_of_length_le (by omega)
      have := hp.mem_iff.2 hy
      exact (List.mem_filter.1 this).1
    · intro hall
      apply Nat.le_antisymm
      · exact (List.subperm_of_subset hnf hsub).length_le
      · apply (List.subperm_of_subset (items_nodup B) _).length_le
        intro y hy
        rw [List.mem_filter, decide_eq_true_eq]
        refine ⟨hall y hy, ?_, ?_⟩
        · rw [items_batch hy, ← items_batch hxB]
        · have := items_noop hy
          simp only [hk, iff_false] at this
          simpa using this
  have hnot : x.batch ∉ s.called := by
    rw [A.callback]
    rintro ⟨B', hB', hall⟩
    rw [hB] at hB'
    simp only [Option.some.injEq] at hB'
    subst hB'
    exact hxd (hall x hxB)
  have hcond : (some (s.completed x.batch + 1) = (s.batches x.batch).map (fun b => b.keys.length)) ↔ ∀ y ∈ B.itemsToAdd, y ∈ s'.done := by
    rw [hB, Option.map_some, Option.some.injEq]; exact hfull
  constructor
  · rw [h4, h2]; exact A.owner
  · rw [h1, h2]; exact A.ownerA
  · rw [h4]; exact A.nodup
  · rw [h1]; exact A.nodupA
  · rw [h1, h4]; exact A.fresh
  · rw [h1]; exact A.apart
  · rw [h2]; exact A.ids
  · rw [h2, h4, h1]; exact A.all
  · exact hcount
  · rw [h6]
    split
    · rw [List.nodup_append]
      refine ⟨A.once, by simp, ?_⟩
      intro a ha b hb hab
      rw [List.mem_singleton] at hb
      subst hab; subst hb
      exact hnot ha
    · exact A.once
  · intro b
    have hold : b ≠ x.batch → (b ∈ s.called ↔ AllDone s' b) := by
      intro e
      rw [A.callback b]
      unfold AllDone
      rw [h2, h5]
      constructor
      · rintro ⟨B', hB', hall⟩; exact ⟨B', hB', fun y hy => List.mem_append_left _ (hall y hy)⟩
      · rintro ⟨B', hB', hall⟩
        refine ⟨B', hB', fun y hy => ?_⟩
        rcases List.mem_append.1 (hall y hy) with h | h
        · exact h
        · rw [List.mem_singleton] at h
          subst h
          exact absurd ((A.ids b B' hB').symm.trans (items_batch hy).symm) e
    by_cases e : b = x.batch
    · subst e
      have hiff : AllDone s' x.batch ↔ ∀ y ∈ B.itemsToAdd, y ∈ s'.done := by
        unfold AllDone
        rw [h2, hB]
        constructor
        · rintro ⟨B', hB', hall⟩; simp only [Option.some.injEq] at hB'; subst hB'; exact hall
        · intro hall; exact ⟨B, rfl, hall⟩
      rw [hiff, ← hcond, h6]
      split
      · rename_i hc; simp [hc]
      · rename_i hc; simp [hc, hnot]
    · rw [← hold e, h6]
      split
      · simp [e]
      · rfl

theorem acc_noop {s s' : State K} (A : Acc s) {P P' : List (Item K)} (_I : Inv s P) (I' : Inv s' P') {x : Item K} (hx : x.noop = true)
    (h1 : s'.adders = s.adders) (h2 : s'.batches = s.batches) (h3 : s'.completed = s.completed)
    (h4 : s'.added = s.added) (h5 : s'.done = s.done ++ [x]) (h6 : s'.called = s.called ++ [x.batch]) : Acc s' := by
  have hnd : s'.done.Nodup := done_nodup I' (by rw [h4]; exact A.nodup)
  have hxa : x ∈ s.added := by
    have : x ∈ s'.done := by rw [h5]; simp
    have := done_added I' this
    rwa [h4] at this
  have hxd : x ∉ s.done := by
    rw [h5, List.nodup_append] at hnd
    intro h
    exact hnd.2.2 x h x (by simp) rfl
  obtain ⟨B, hB, hxB⟩ := A.owner x hxa
  have hBid := A.ids _ _ hB
  have hk := (items_noop hxB).1 hx
  have hitems : B.itemsToAdd = [x] := by
    have : B.itemsToAdd = [{ batch := B.id, idx := 0, key := B.key, noop := true }] := by unfold Batch.itemsToAdd; rw [if_pos hk]
    rw [this] at hxB ⊢
    rw [List.mem_singleton] at hxB
    rw [hxB]
  have hnot : x.batch ∉ s.called := by
    rw [A.callback]
    rintro ⟨B', hB', hall⟩
    rw [hB] at hB'
    simp only [Option.some.injEq] at hB'
    subst hB'
    exact hxd (hall x hxB)
  constructor
  · rw [h4, h2]; exact A.owner
  · rw [h1, h2]; exact A.ownerA
  · rw [h4]; exact A.nodup
  · rw [h1]; exact A.nodupA
  · rw [h1, h4]; exact A.fresh
  · rw [h1]; exact A.apart
  · rw [h2]; exact A.ids
  · rw [h2, h4, h1]; exact A.all
  · intro b
    rw [h3, h5, List.filter_append, A.counter b]
    simp [hx]
  · rw [h6, List.nodup_append]
    refine ⟨A.once, by simp, ?_⟩
    intro a ha b hb hab
    rw [List.mem_singleton] at hb
    subst hab; subst hb
    exact hnot ha
  · intro b
    rw [h6, List.mem_append, List.mem_singleton, A.callback b]
    unfold AllDone
    rw [h2, h5]
    constructor
    · rintro (⟨B', hB', hall⟩ | rfl)
      · exact ⟨B', hB', fun y hy => List.mem_append_left _ (hall y hy)⟩
      · exact ⟨B, hB, fun y hy => by rw [hitems] at hy; exact List.mem_append_right _ hy⟩
    · rintro ⟨B', hB', hall⟩
      by_cases e : b = x.batch
      · exact .inr e
      · left
        refine ⟨B', hB', fun y hy => ?_⟩
        rcases List.mem_append.1 (hall y hy) with h | h
        · exact h
        · rw [List.mem_singleton] at h
          subst h
          exact absurd ((A.ids b B' hB').symm.trans (items_batch hy).symm) e

theorem acc_step {s s' : State K} {l : Label K} (G : Good s) (A : Acc s) (h : step s l = some s') : Acc s' := by
  have G' := good_step G h
  cases l with
  | call t b =>
    simp only [step] at h
    split at h
    · rename_i hc
      simp only [Option.some.injEq] at h
      subst h
      exact acc_call G.1 A hc.1 hc.2
    · simp at h
  | add t =>
    simp only [step] at h
    split at h
    · simp at h
    · rename_i x r hx
      simp only [Option.some.injEq] at h
      subst h
      exact acc_add A hx
  | fire i =>
    simp only [step] at h
    split at h
    · simp only [Option.some.injEq] at h
      subst h
      exact acc_same A rfl rfl rfl rfl rfl rfl
    · simp at h
  | flush i =>
    simp only [step] at h
    split at h
    · simp at h
    · rename_i m hm
      simp only [Option.some.injEq] at h
      have := same_condExec (s.setE i { s.execs i with late := m }) i
      rw [h] at this
      exact acc_same A this.adders this.batches this.completed this.added this.done this.called
  | go i j =>
    simp only [step, Option.map_eq_some_iff] at h
    obtain ⟨p, hp, hs⟩ := h
    obtain ⟨he, hg, hj, hok⟩ := the_go G.1.str hp
    have E := G.1.str.eok i
    cases p with
    | queued =>
      simp only [goStep] at hs
      split at hs <;> subst hs <;> exact acc_same A rfl rfl rfl rfl rfl rfl
    | running => simp only [goStep] at hs; subst hs; exact acc_same A rfl rfl rfl rfl rfl rfl
    | completing r =>
      cases r with
      | nil => simp only [goStep] at hs; subst hs; exact acc_same A rfl rfl rfl rfl rfl rfl
      | cons x r =>
        simp only [goStep] at hs
        simp only [Phase.ok] at hok
        subst hs
        exact acc_item A G.1 G'.1 (E.kindI x (suffix_cons hok).1) rfl rfl rfl rfl rfl rfl
    | nooping r =>
      cases r with
      | nil =>
        simp only [goStep] at hs
        have := same_finish s i j
        rw [hs] at this
        exact acc_same A this.adders this.batches this.completed this.added this.done this.called
      | cons x r =>
        simp only [goStep] at hs
        simp only [Phase.ok] at hok
        subst hs
        exact acc_noop A G.1 G'.1 (E.kindN x (suffix_cons hok).1) rfl rfl rfl rfl rfl rfl

/-- Everything known about a reachable state. -/
theorem acc_run {s s' : State K} {ls : List (Label K)} (G : Good s) (A : Acc s) (h : run s ls = some s') : Good s' ∧ Acc s' := by
  induction ls generalizing s with
  | nil => simp only [run, Option.some.injEq] at h; subst h; exact ⟨G, A⟩
  | cons l ls ih =>
    simp only [run, Option.bind_eq_some_iff] at h
    obtain ⟨s1, e1, e2⟩ := h
    exact ih (good_step G e1) (acc_step G A e1) e2

theorem acc_reach {max n : Nat} (hm : 1 ≤ max) {s : State K} (h : Reach max n s) : Good s ∧ Acc s := by
  obtain ⟨ls, h⟩ := h
  exact acc_run (inv_init max n hm) (acc_init max n) h

end Verif.Batcher
