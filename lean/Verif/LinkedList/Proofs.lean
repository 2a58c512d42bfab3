import Mathlib.Tactic.Common
import Mathlib.Data.List.Perm.Basic
import Verif.LinkedList.Model
/-
The linked list refines finite sequences: pointer rings and their surgery.
-/
namespace Verif.LinkedList

@[simp] theorem upd_same {α β : Type} [DecidableEq α] (f : α → β) (a : α) (b : β) : upd f a b a = b := by
  simp [upd]

theorem upd_ne {α β : Type} [DecidableEq α] (f : α → β) {a x : α} (b : β) (h : x ≠ a) : upd f a b x = f x := by
  simp [upd, h]

/-- From `a` the pointers lead through `xs` to `b`, forwards and backwards. -/
def Seg (nx pv : Addr → Option Addr) : Addr → List Addr → Addr → Prop
  | a, [], b => nx a = some b ∧ pv b = some a
  | a, x :: xs, b => nx a = some x ∧ pv x = some a ∧ Seg nx pv x xs b

theorem seg_append (nx pv : Addr → Option Addr) (a m b : Addr) (xs ys : List Addr) :
    Seg nx pv a (xs ++ m :: ys) b ↔ Seg nx pv a xs m ∧ Seg nx pv m ys b := by
  induction xs generalizing a with
  | nil => simp [Seg, and_assoc]
  | cons x xs ih => simp [Seg, ih, and_assoc]

theorem seg_congr {nx pv nx' pv' : Addr → Option Addr} {a b : Addr} {xs : List Addr}
    (h1 : ∀ x ∈ a :: xs, nx' x = nx x) (h2 : ∀ x ∈ xs ++ [b], pv' x = pv x)
    (h : Seg nx pv a xs b) : Seg nx' pv' a xs b := by
  induction xs generalizing a with
  | nil =>
    simp only [Seg] at *
    rw [h1 a (by simp), h2 b (by simp)]
    exact h
  | cons x xs ih =>
    simp only [Seg] at *
    rw [h1 a (by simp), h2 x (by simp)]
    exact ⟨h.1, h.2.1, ih (fun y hy => h1 y (List.mem_cons_of_mem _ hy)) (fun y hy => h2 y (by simp at hy ⊢; tauto)) h.2.2⟩

/-- The addresses form a ring. -/
def Ring (nx pv : Addr → Option Addr) : List Addr → Prop
  | [] => True
  | a :: zs => Seg nx pv a zs a

theorem ring_rotate {nx pv : Addr → Option Addr} {xs ys : List Addr} (h : Ring nx pv (xs ++ ys)) :
    Ring nx pv (ys ++ xs) := by
  cases xs with
  | nil => simpa using h
  | cons a xs =>
    cases ys with
    | nil => simpa using h
    | cons b ys =>
      simp only [Ring, List.cons_append] at *
      rw [seg_append] at *
      exact ⟨h.2, h.1⟩

theorem ring_congr {nx pv nx' pv' : Addr → Option Addr} {c : List Addr}
    (h1 : ∀ x ∈ c, nx' x = nx x) (h2 : ∀ x ∈ c, pv' x = pv x) (h : Ring nx pv c) : Ring nx' pv' c := by
  cases c with
  | nil => trivial
  | cons a zs =>
    refine seg_congr h1 ?_ h
    intro x hx
    apply h2
    simp at hx ⊢
    tauto

theorem ring_adj {nx pv : Addr → Option Addr} {xs ys : List Addr} {p q : Addr} (h : Ring nx pv (xs ++ p :: q :: ys)) :
    nx p = some q ∧ pv q = some p := by
  have := ring_rotate h
  simp only [Ring, List.cons_append, Seg] at this
  exact ⟨this.1, this.2.1⟩

theorem ring_wrap {nx pv : Addr → Option Addr} {zs : List Addr} {p q : Addr} (h : Ring nx pv (q :: zs ++ [p])) :
    nx p = some q ∧ pv q = some p := by
  have := ring_rotate (xs := q :: zs) (ys := [p]) h
  exact ring_adj (xs := []) this

theorem ring_single {nx pv : Addr → Option Addr} {a : Addr} (h : Ring nx pv [a]) : nx a = some a ∧ pv a = some a := h

/-- Every member of a ring has its successor and predecessor in the ring. -/
theorem ring_next_mem {nx pv : Addr → Option Addr} {c : List Addr} {x : Addr} (h : Ring nx pv c) (hx : x ∈ c) :
    ∃ n ∈ c, nx x = some n := by
  obtain ⟨s, t, rfl⟩ := List.append_of_mem hx
  cases t with
  | cons q t => exact ⟨q, by simp, (ring_adj h).1⟩
  | nil =>
    cases s with
    | nil => exact ⟨x, by simp, (ring_single h).1⟩
    | cons y s => exact ⟨y, by simp, (ring_wrap h).1⟩

theorem ring_prev_mem {nx pv : Addr → Option Addr} {c : List Addr} {x : Addr} (h : Ring nx pv c) (hx : x ∈ c) :
    ∃ n ∈ c, pv x = some n := by
  obtain ⟨s, t, rfl⟩ := List.append_of_mem hx
  rcases List.eq_nil_or_concat s with rfl | ⟨s, p, rfl⟩
  · rcases List.eq_nil_or_concat t with rfl | ⟨t, p, rfl⟩
    · exact ⟨x, by simp, (ring_single h).2⟩
    · exact ⟨p, by simp, (ring_wrap (by simpa using h)).2⟩
  · rw [List.concat_eq_append, List.append_assoc] at h
    exact ⟨p, by simp, (ring_adj h).2⟩

/-- Linking a new element after `a`. -/
theorem ring_link {nx pv : Addr → Option Addr} {xs ys : List Addr} {a e n : Addr}
    (h : Ring nx pv (xs ++ a :: ys)) (hn : (xs ++ a :: ys).Nodup) (he : e ∉ xs ++ a :: ys) (hnx : nx a = some n) :
    Ring (upd (upd nx e (some n)) a (some e)) (upd (upd pv e (some a)) n (some e)) (xs ++ a :: e :: ys) := by
  have hr := ring_rotate h
  have hperm : (xs ++ a :: ys).Perm (a :: ys ++ xs) := List.perm_append_comm
  have hn' : (a :: (ys ++ xs)).Nodup := by simpa using hperm.nodup_iff.mp hn
  have he' : e ∉ a :: (ys ++ xs) := by
    intro hc; exact he (hperm.mem_iff.mpr (by simpa using hc))
  rw [show a :: ys ++ xs = a :: (ys ++ xs) by simp] at hr
  have key : Ring (upd (upd nx e (some n)) a (some e)) (upd (upd pv e (some a)) n (some e)) (a :: e :: (ys ++ xs)) := by
    generalize ys ++ xs = zs at hr hn' he'
    have hae : a ≠ e := fun hc => he' (by simp [hc])
    cases zs with
    | nil =>
      have := ring_single hr
      rw [this.1] at hnx
      obtain rfl := Option.some.inj hnx
      simp [Ring, Seg, upd, hae.symm]
    | cons z zs =>
      simp only [Ring, Seg] at hr ⊢
      rw [hr.1] at hnx
      obtain rfl := Option.some.inj hnx
      have hze : z ≠ e := fun hc => he' (by simp [hc])
      have haz : a ≠ z := fun hc => by simp [hc] at hn'
      refine ⟨by simp, ?_, ?_, by simp, ?_⟩
      · rw [upd_ne _ _ hze.symm]; simp
      · rw [upd_ne _ _ hae.symm]; simp
      · refine seg_congr ?_ ?_ hr.2.2
        · intro x hx
          have h1 : x ≠ a := fun hc => by subst hc; exact (List.nodup_cons.mp hn').1 hx
          have h2 : x ≠ e := fun hc => by subst hc; exact he' (List.mem_cons_of_mem _ hx)
          rw [upd_ne _ _ h1, upd_ne _ _ h2]
        · intro x hx
          have h1 : x ≠ z := by
            rintro rfl
            rcases List.mem_append.mp hx with hx | hx
            · exact (List.nodup_cons.mp (List.nodup_cons.mp hn').2).1 hx
            · exact haz (List.mem_singleton.mp hx).symm
          have h2 : x ≠ e := by
            rintro rfl
            rcases List.mem_append.mp hx with hx | hx
            · exact he' (by simp [hx])
            · exact hae (List.mem_singleton.mp hx).symm
          rw [upd_ne _ _ h1, upd_ne _ _ h2]
  have := ring_rotate (xs := a :: e :: ys) (ys := xs) (by simpa using key)
  exact this

/-- Unlinking an element whose predecessor is `p`. -/
theorem ring_unlink {nx pv : Addr → Option Addr} {xs ys : List Addr} {p e n : Addr}
    (h : Ring nx pv (xs ++ p :: e :: ys)) (hn : (xs ++ p :: e :: ys).Nodup) (hnx : nx e = some n) :
    Ring (upd nx p (some n)) (upd pv n (some p)) (xs ++ p :: ys) := by
  have hr := ring_rotate h
  have hperm : (xs ++ p :: e :: ys).Perm (p :: e :: ys ++ xs) := List.perm_append_comm
  have hn' : (p :: e :: (ys ++ xs)).Nodup := by simpa using hperm.nodup_iff.mp hn
  rw [show p :: e :: ys ++ xs = p :: e :: (ys ++ xs) by simp] at hr
  have key : Ring (upd nx p (some n)) (upd pv n (some p)) (p :: (ys ++ xs)) := by
    generalize ys ++ xs = zs at hr hn'
    have hpe : p ≠ e := fun hc => by simp [hc] at hn'
    cases zs with
    | nil =>
      simp only [Ring, Seg] at hr ⊢
      rw [hr.2.2.1] at hnx
      obtain rfl := Option.some.inj hnx
      simp
    | cons z zs =>
      simp only [Ring, Seg] at hr ⊢
      rw [hr.2.2.1] at hnx
      obtain rfl := Option.some.inj hnx
      refine ⟨by simp, by simp, ?_⟩
      refine seg_congr ?_ ?_ hr.2.2.2.2
      · intro x hx
        have h1 : x ≠ p := fun hc => by
          subst hc; exact (List.nodup_cons.mp hn').1 (List.mem_cons_of_mem _ hx)
        rw [upd_ne _ _ h1]
      · intro x hx
        have h1 : x ≠ z := by
          rintro rfl
          rcases List.mem_append.mp hx with hx | hx
          · exact (List.nodup_cons.mp (List.nodup_cons.mp (List.nodup_cons.mp hn').2).2).1 hx
          · rw [List.mem_singleton.mp hx] at hn'
            simp at hn'
        rw [upd_ne _ _ h1]
  have := ring_rotate (xs := p :: ys) (ys := xs) (by simpa using key)
  exact this

/-! ### Specification: finite sequences of elements -/

namespace Spec

/-- The specification state: for each list the sequence of its elements, the value of each element, and
the number of elements made so far. -/
structure State (V : Type) where
  seq : Nat → List Nat
  value : Nat → V
  fresh : Nat

variable {V : Type}

/-- Put `e` before `m` in a sequence. -/
def before (m e : Nat) : List Nat → List Nat
  | [] => []
  | x :: xs => if x = m then e :: x :: xs else x :: before m e xs

/-- Put `e` after `m` in a sequence. -/
def after (m e : Nat) : List Nat → List Nat
  | [] => []
  | x :: xs => if x = m then x :: e :: xs else x :: after m e xs

/-- Replace one sequence. -/
def State.set (s : State V) (l : Nat) (xs : List Nat) : State V :=
  { s with seq := fun l' => if l' = l then xs else s.seq l' }

/-- A new element with value `v`, placed by `f`. -/
def State.add (s : State V) (l : Nat) (v : V) (f : Nat → List Nat → List Nat) : State V :=
  { seq := fun l' => if l' = l then f s.fresh (s.seq l) else s.seq l',
    value := fun e => if e = s.fresh then v else s.value e,
    fresh := s.fresh + 1 }

/-- Append a new element. -/
def State.pushBack (s : State V) (l : Nat) (v : V) : State V := s.add l v fun e xs => xs ++ [e]
/-- Prepend a new element. -/
def State.pushFront (s : State V) (l : Nat) (v : V) : State V := s.add l v fun e xs => e :: xs

/-- The effect each operation should have. Elements that are not in the list are ignored. -/
def exec (s : State V) : Op V → State V
  | .newList _ => s
  | .remove l e => s.set l ((s.seq l).erase e)
  | .pushFront l v => s.pushFront l v
  | .pushBack l v => s.pushBack l v
  | .insertBefore l v m => if m ∈ s.seq l then s.add l v (before m) else s
  | .insertAfter l v m => if m ∈ s.seq l then s.add l v (after m) else s
  | .moveToFront l e => if e ∈ s.seq l then s.set l (e :: (s.seq l).erase e) else s
  | .moveToBack l e => if e ∈ s.seq l then s.set l ((s.seq l).erase e ++ [e]) else s
  | .moveBefore l e m =>
    if e ∈ s.seq l ∧ m ∈ s.seq l ∧ e ≠ m then s.set l (before m e ((s.seq l).erase e)) else s
  | .moveAfter l e m =>
    if e ∈ s.seq l ∧ m ∈ s.seq l ∧ e ≠ m then s.set l (after m e ((s.seq l).erase e)) else s
  | .pushBackList l o => (s.seq o).foldl (fun t x => t.pushBack l (s.value x)) s
  | .pushFrontList l o => (s.seq o).reverse.foldl (fun t x => t.pushFront l (s.value x)) s

end Spec

/-! ### Representation -/

variable {V : Type}

/-- The ring of a list: its sentinel and its elements. -/
def ringOf (l : Nat) (xs : List Nat) : List Addr := .root l :: xs.map .elem

theorem elem_mem_ringOf {l e : Nat} {xs : List Nat} : Addr.elem e ∈ ringOf l xs ↔ e ∈ xs := by
  simp [ringOf]

theorem root_mem_ringOf {l l' : Nat} {xs : List Nat} : Addr.root l' ∈ ringOf l xs ↔ l' = l := by
  simp [ringOf]

theorem nodup_ringOf {l : Nat} {xs : List Nat} : (ringOf l xs).Nodup ↔ xs.Nodup := by
  unfold ringOf
  rw [List.nodup_cons]
  constructor
  · intro h
    have h2 := h.2
    rw [List.Nodup, List.pairwise_map] at h2
    exact h2.imp (fun hab hc => hab (by rw [hc]))
  · intro h
    refine ⟨by simp, ?_⟩
    rw [List.Nodup, List.pairwise_map]
    exact List.Pairwise.imp (fun hab hc => hab (by simpa using hc)) h

/-- The memory represents the specification state. -/
structure Rep (h : Heap V) (s : Spec.State V) : Prop where
  ring : ∀ l, (h.next (.root l) = none ∧ s.seq l = []) ∨ Ring h.next h.prev (ringOf l (s.seq l))
  own : ∀ e l, h.owner e = some l ↔ e ∈ s.seq l
  nodup : ∀ l, (s.seq l).Nodup
  len : ∀ l, h.len l = (s.seq l).length
  lt : ∀ l, ∀ e ∈ s.seq l, e < s.fresh
  value : ∀ e, h.value e = s.value e
  fresh : h.fresh = s.fresh

theorem rep_empty (v : V) : Rep (Heap.empty v) { seq := fun _ => [], value := fun _ => v, fresh := 0 } := by
  constructor <;> simp [Heap.empty]

theorem Rep.ring_of_mem {h : Heap V} {s : Spec.State V} (R : Rep h s) {l e : Nat} (he : e ∈ s.seq l) :
    Ring h.next h.prev (ringOf l (s.seq l)) := by
  rcases R.ring l with ⟨_, h2⟩ | h1
  · rw [h2] at he; cases he
  · exact h1

theorem Rep.disjoint {h : Heap V} {s : Spec.State V} (R : Rep h s) {l l' : Nat} (hl : l' ≠ l) {x : Addr}
    (hx : x ∈ ringOf l' (s.seq l')) : x ∉ ringOf l (s.seq l) := by
  cases x with
  | root k => rw [root_mem_ringOf] at *; rintro rfl; exact hl hx.symm
  | elem e =>
    rw [elem_mem_ringOf] at *
    intro hc
    have h1 := (R.own e l').mpr hx
    rw [(R.own e l).mpr hc] at h1
    exact hl (Option.some.inj h1).symm

theorem rep_lazyInit {h : Heap V} {s : Spec.State V} (R : Rep h s) (l : Nat) :
    Rep (lazyInit h l) s ∧ Ring (lazyInit h l).next (lazyInit h l).prev (ringOf l (s.seq l)) := by
  unfold lazyInit
  rcases R.ring l with ⟨h1, h2⟩ | h1
  · rw [if_pos h1]
    have hring : Ring (init h l).next (init h l).prev (ringOf l (s.seq l)) := by
      rw [h2]; simp [init, ringOf, Ring, Seg]
    refine ⟨?_, hring⟩
    constructor
    · intro l'
      by_cases hl : l' = l
      · subst hl; exact .inr hring
      · have hr : Addr.root l' ≠ Addr.root l := by simpa using hl
        rcases R.ring l' with ⟨h3, h4⟩ | h3
        · left; exact ⟨by simpa [init, upd_ne _ _ hr] using h3, h4⟩
        · right
          refine ring_congr ?_ ?_ h3
          · intro x hx
            have : x ≠ Addr.root l := by
              rintro rfl; rw [root_mem_ringOf] at hx; exact hl hx.symm
            simp [init, upd_ne _ _ this]
          · intro x hx
            have : x ≠ Addr.root l := by
              rintro rfl; rw [root_mem_ringOf] at hx; exact hl hx.symm
            simp [init, upd_ne _ _ this]
    · exact R.own
    · exact R.nodup
    · intro l'
      by_cases hl : l' = l
      · subst hl; simp [init, h2]
      · simpa [init, upd_ne _ _ hl] using R.len l'
    · exact R.lt
    · exact R.value
    · exact R.fresh
  · rw [if_neg]
    · exact ⟨R, h1⟩
    · obtain ⟨n, _, hn⟩ := ring_next_mem h1 (x := .root l) (by simp [ringOf])
      rw [hn]; simp

/-- `link` on a ring. -/
theorem link_eq {h : Heap V} {e a n : Addr} (hea : a ≠ e) (hn : h.next a = some n) :
    link h e a = some { h with next := upd (upd h.next e (some n)) a (some e),
                               prev := upd (upd h.prev e (some a)) n (some e) } := by
  unfold link
  simp only [upd_same, hn]
  rw [upd_ne _ _ hea.symm]
  simp

theorem unlink_eq {h : Heap V} {e p n : Addr} (hpe : p ≠ e) (hn : h.next e = some n) (hp : h.prev e = some p) :
    unlink h e = some { h with next := upd h.next p (some n), prev := upd h.prev n (some p) } := by
  unfold unlink
  simp only [hp, hn]
  rw [upd_ne _ _ hpe.symm, hn]

/-- Inserting a new element at a place in the ring. -/
theorem rep_insert {h : Heap V} {s : Spec.State V} (R : Rep h s) (l : Nat) (v : V) (a : Addr)
    (xs ys : List Addr) (f : Nat → List Nat → List Nat)
    (hring : Ring h.next h.prev (ringOf l (s.seq l)))
    (hR : ringOf l (s.seq l) = xs ++ a :: ys)
    (hR' : ringOf l (f s.fresh (s.seq l)) = xs ++ a :: .elem s.fresh :: ys) :
    ∃ h', insertValue h l v (some a) = some h' ∧ Rep h' (s.add l v f) := by
  have hnd := nodup_ringOf (l := l).mpr (R.nodup l)
  have hfr : Addr.elem s.fresh ∉ ringOf l (s.seq l) := by
    rw [elem_mem_ringOf]; intro hc; have := R.lt l _ hc; omega
  have hmem : ∀ x, x ∈ f s.fresh (s.seq l) ↔ x = s.fresh ∨ x ∈ s.seq l := by
    intro x
    rw [← elem_mem_ringOf (l := l), hR', ← elem_mem_ringOf (l := l), hR]
    simp only [List.mem_append, List.mem_cons, Addr.elem.injEq]
    tauto
  rw [hR] at hnd hfr hring
  have hae : a ≠ Addr.elem s.fresh := fun hc => hfr (by simp [hc])
  obtain ⟨n, hnm, hn⟩ := ring_next_mem hring (x := a) (by simp)
  have hringN := ring_link hring hnd hfr hn
  have hfresh := R.fresh
  refine ⟨{ next := upd (upd h.next (.elem s.fresh) (some n)) a (some (.elem s.fresh)),
            prev := upd (upd h.prev (.elem s.fresh) (some a)) n (some (.elem s.fresh)),
            value := upd h.value s.fresh v, fresh := s.fresh + 1,
            owner := upd h.owner s.fresh (some l), len := upd h.len l (h.len l + 1) }, ?_, ?_⟩
  · simp only [insertValue, insert, hfresh]
    rw [link_eq (h := { h with value := upd h.value s.fresh v, fresh := s.fresh + 1 }) hae hn]
    rfl
  · constructor
    · intro l'
      by_cases hl : l' = l
      · subst hl
        right
        simp only [Spec.State.add, if_pos]
        rw [hR']
        exact hringN
      · simp only [Spec.State.add, if_neg hl]
        have hout : ∀ x ∈ ringOf l' (s.seq l'), x ≠ a ∧ x ≠ n ∧ x ≠ Addr.elem s.fresh := by
          intro x hx
          have h1 := R.disjoint hl hx
          rw [hR] at h1
          refine ⟨fun hc => h1 (by simp [hc]), fun hc => h1 (by rw [hc]; exact hnm), ?_⟩
          rintro rfl
          rw [elem_mem_ringOf] at hx
          have := R.lt l' _ hx
          omega
        rcases R.ring l' with ⟨h3, h4⟩ | h3
        · have h5 : Addr.root l' ≠ a := (hout _ (by simp [ringOf])).1
          left
          refine ⟨?_, h4⟩
          rw [upd_ne _ _ h5, upd_ne _ _ (by simp)]
          exact h3
        · right
          refine ring_congr ?_ ?_ h3
          · intro x hx
            obtain ⟨h5, h6, h7⟩ := hout x hx
            rw [upd_ne _ _ h5, upd_ne _ _ h7]
          · intro x hx
            obtain ⟨h5, h6, h7⟩ := hout x hx
            rw [upd_ne _ _ h6, upd_ne _ _ h7]
    · intro e l'
      simp only [Spec.State.add]
      by_cases he : e = s.fresh
      · subst he
        simp only [upd_same, Option.some.injEq]
        by_cases hl : l' = l
        · subst hl; simp [hmem]
        · simp only [if_neg hl]
          constructor
          · intro hc; exact absurd hc.symm hl
          · intro hc; have := R.lt l' _ hc; omega
      · rw [upd_ne _ _ he, R.own]
        by_cases hl : l' = l
        · subst hl; simp [hmem, he]
        · simp only [if_neg hl]
    · intro l'
      simp only [Spec.State.add]
      by_cases hl : l' = l
      · subst hl
        simp only [if_pos]
        rw [← nodup_ringOf (l := l'), hR']
        have hp : (xs ++ a :: Addr.elem s.fresh :: ys).Perm (Addr.elem s.fresh :: (xs ++ a :: ys)) := by
          have : (a :: Addr.elem s.fresh :: ys).Perm (Addr.elem s.fresh :: a :: ys) := List.Perm.swap _ _ _
          exact (this.append_left xs).trans List.perm_middle
        rw [hp.nodup_iff, List.nodup_cons]
        exact ⟨hfr, hnd⟩
      · simp only [if_neg hl]; exact R.nodup l'
    · intro l'
      simp only [Spec.State.add]
      by_cases hl : l' = l
      · subst hl
        have e1 := congrArg List.length hR
        have e2 := congrArg List.length hR'
        simp [ringOf] at e1 e2
        simp only [upd_same, if_pos, R.len]
        omega
      · simp only [if_neg hl, upd_ne _ _ hl]; exact R.len l'
    · intro l' e he
      simp only [Spec.State.add] at he ⊢
      by_cases hl : l' = l
      · subst hl
        simp only [if_pos] at he
        rcases (hmem e).mp he with rfl | he
        · omega
        · have := R.lt _ _ he; omega
      · simp only [if_neg hl] at he
        have := R.lt _ _ he; omega
    · intro e
      simp only [Spec.State.add, upd, R.value]
    · simp [Spec.State.add]

/-- The generic step for operations that permute or shrink one list. -/
theorem rep_change {h h' : Heap V} {s : Spec.State V} (R : Rep h s) (l : Nat) (xs : List Nat)
    (hring : Ring h'.next h'.prev (ringOf l xs))
    (hout1 : ∀ x, x ∉ ringOf l (s.seq l) → h'.next x = h.next x)
    (hout2 : ∀ x, x ∉ ringOf l (s.seq l) → h'.prev x = h.prev x)
    (hnd : xs.Nodup) (hsub : ∀ e ∈ xs, e ∈ s.seq l)
    (hown : ∀ e, h'.owner e = if e ∈ s.seq l ∧ e ∉ xs then none else h.owner e)
    (hlen : h'.len l = xs.length) (hlen' : ∀ l', l' ≠ l → h'.len l' = h.len l')
    (hval : h'.value = h.value) (hfresh : h'.fresh = h.fresh) : Rep h' (s.set l xs) := by
  constructor
  · intro l'
    by_cases hl : l' = l
    · subst hl
      right
      simpa [Spec.State.set] using hring
    · simp only [Spec.State.set, if_neg hl]
      rcases R.ring l' with ⟨h3, h4⟩ | h3
      · left
        refine ⟨?_, h4⟩
        rw [hout1 _ (by rw [root_mem_ringOf]; exact hl)]
        exact h3
      · right
        exact ring_congr (fun x hx => hout1 x (R.disjoint hl hx)) (fun x hx => hout2 x (R.disjoint hl hx)) h3
  · intro e l'
    rw [hown]
    simp only [Spec.State.set]
    by_cases hl : l' = l
    · subst hl
      simp only [if_pos]
      constructor
      · intro hh
        split at hh
        · cases hh
        · rename_i hc
          have := (R.own e l').mp hh
          by_contra hx
          exact hc ⟨this, hx⟩
      · intro hh
        rw [if_neg (by tauto)]
        exact (R.own e l').mpr (hsub e hh)
    · simp only [if_neg hl]
      refine Iff.trans ?_ (R.own e l')
      constructor
      · intro hh
        split at hh
        · cases hh
        · exact hh
      · intro hh
        rw [if_neg]
        · exact hh
        · rintro ⟨hc, _⟩
          rw [(R.own e l).mpr hc] at hh
          exact hl (Option.some.inj hh).symm
  · intro l'
    simp only [Spec.State.set]
    split
    · exact hnd
    · exact R.nodup l'
  · intro l'
    simp only [Spec.State.set]
    by_cases hl : l' = l
    · subst hl; simpa using hlen
    · simp only [if_neg hl]; rw [hlen' l' hl]; exact R.len l'
  · intro l' e he
    simp only [Spec.State.set] at he ⊢
    split at he
    · exact R.lt l e (hsub e he)
    · exact R.lt l' e he
  · intro e; rw [hval]; exact R.value e
  · rw [hfresh]; exact R.fresh

/-- A member of a list in its ring: what precedes it. -/
theorem ring_split {l e : Nat} {as bs : List Nat} :
    ∃ xs p, ringOf l (as ++ e :: bs) = xs ++ p :: .elem e :: bs.map .elem ∧
      ringOf l (as ++ bs) = xs ++ p :: bs.map .elem := by
  rcases List.eq_nil_or_concat as with rfl | ⟨as, p, rfl⟩
  · exact ⟨[], .root l, by simp [ringOf], by simp [ringOf]⟩
  · exact ⟨.root l :: as.map .elem, .elem p, by simp [ringOf], by simp [ringOf]⟩

theorem erase_split {e : Nat} {as bs : List Nat} (h : (as ++ e :: bs).Nodup) : (as ++ e :: bs).erase e = as ++ bs := by
  have : e ∉ as := by
    intro hc
    rw [List.nodup_append] at h
    exact h.2.2 e hc e (by simp) rfl
  rw [List.erase_append_right _ this, List.erase_cons_head]

theorem rep_remove {h : Heap V} {s : Spec.State V} (R : Rep h s) (l e : Nat) (he : e ∈ s.seq l) :
    ∃ h', remove h l e = some h' ∧ Rep h' (s.set l ((s.seq l).erase e)) := by
  have hring := R.ring_of_mem he
  have hnd := R.nodup l
  obtain ⟨as, bs, hs⟩ := List.append_of_mem he
  obtain ⟨xs, p, h1, h2⟩ := ring_split (l := l) (e := e) (as := as) (bs := bs)
  have hndR := nodup_ringOf (l := l).mpr hnd
  have hmemR : ∀ x, x ∈ ringOf l (s.seq l) ↔ x ∈ xs ++ p :: .elem e :: bs.map .elem := by
    intro x; rw [hs, h1]
  rw [hs] at hnd
  rw [hs, h1] at hring hndR
  obtain ⟨n, hnm, hn⟩ := ring_next_mem hring (x := .elem e) (by simp)
  have hp := (ring_adj hring).2
  have hpe : p ≠ .elem e := by
    rintro rfl
    rw [List.nodup_append] at hndR
    simp at hndR
  have hu := unlink_eq hpe hn hp
  have hR := ring_unlink hring hndR hn
  have hpm : p ∈ ringOf l (s.seq l) := by rw [hmemR]; simp
  have hem : Addr.elem e ∈ ringOf l (s.seq l) := by rw [hmemR]; simp
  have hnm' : n ∈ ringOf l (s.seq l) := by rw [hmemR]; exact hnm
  have hnotin : Addr.elem e ∉ xs ++ p :: bs.map .elem := by
    rw [← h2, elem_mem_ringOf]
    intro hc
    rw [List.nodup_append] at hnd
    rcases List.mem_append.mp hc with hc | hc
    · exact hnd.2.2 e hc e (by simp) rfl
    · exact (List.nodup_cons.mp hnd.2.1).1 hc
  refine ⟨_, by unfold remove; rw [hu]; rfl, ?_⟩
  have herase : (s.seq l).erase e = as ++ bs := by rw [hs]; exact erase_split hnd
  rw [herase]
  refine rep_change R l (as ++ bs) ?_ ?_ ?_ ?_ ?_ ?_ ?_ ?_ rfl rfl
  · rw [h2]
    refine ring_congr ?_ ?_ hR
    · intro x hx
      have : x ≠ .elem e := by rintro rfl; exact hnotin hx
      exact upd_ne _ _ this
    · intro x hx
      have : x ≠ .elem e := by rintro rfl; exact hnotin hx
      exact upd_ne _ _ this
  · intro x hx
    have h3 : x ≠ .elem e := by rintro rfl; exact hx hem
    have h4 : x ≠ p := by rintro rfl; exact hx hpm
    simp only [upd_ne _ _ h3, upd_ne _ _ h4]
  · intro x hx
    have h3 : x ≠ .elem e := by rintro rfl; exact hx hem
    have h4 : x ≠ n := by rintro rfl; exact hx hnm'
    simp only [upd_ne _ _ h3, upd_ne _ _ h4]
  · exact hnd.sublist (by simp)
  · intro x hx
    rw [hs]
    simp at hx ⊢
    tauto
  · intro x
    simp only
    have hmem : (x ∈ s.seq l ∧ x ∉ as ++ bs) ↔ x = e := by
      rw [hs]
      constructor
      · rintro ⟨h3, h4⟩
        simp at h3 h4
        tauto
      · rintro rfl
        refine ⟨by simp, ?_⟩
        rw [← elem_mem_ringOf (l := l), h2]
        exact hnotin
    by_cases hx : x = e
    · rw [if_pos (hmem.mpr hx), hx]; simp
    · rw [if_neg (fun hc => hx (hmem.mp hc)), upd_ne _ _ hx]
  · simp only [upd_same, R.len, hs]
    simp
    omega
  · intro l' hl
    exact upd_ne _ _ hl

/-- Moving an element after the address `a` of the remaining ring. -/
theorem rep_move {h : Heap V} {s : Spec.State V} (R : Rep h s) (l e : Nat) (he : e ∈ s.seq l) (a : Addr)
    (hae : Addr.elem e ≠ a) (us vs : List Addr) (f : List Nat → List Nat)
    (hR0 : ringOf l ((s.seq l).erase e) = us ++ a :: vs)
    (hR' : ringOf l (f ((s.seq l).erase e)) = us ++ a :: .elem e :: vs) :
    ∃ h', move h (.elem e) a = some h' ∧ Rep h' (s.set l (f ((s.seq l).erase e))) := by
  have hring := R.ring_of_mem he
  have hnd := R.nodup l
  obtain ⟨as, bs, hs⟩ := List.append_of_mem he
  obtain ⟨xs, p, h1, h2⟩ := ring_split (l := l) (e := e) (as := as) (bs := bs)
  have hndR := nodup_ringOf (l := l).mpr hnd
  have hmemR : ∀ x, x ∈ ringOf l (s.seq l) ↔ x ∈ xs ++ p :: .elem e :: bs.map .elem := by
    intro x; rw [hs, h1]
  rw [hs] at hnd
  have herase : (s.seq l).erase e = as ++ bs := by rw [hs]; exact erase_split hnd
  rw [herase] at hR0 hR' ⊢
  rw [hs, h1] at hring hndR
  obtain ⟨n, hnm, hn⟩ := ring_next_mem hring (x := .elem e) (by simp)
  have hp := (ring_adj hring).2
  have hpe : p ≠ .elem e := by
    rintro rfl
    rw [List.nodup_append] at hndR
    simp at hndR
  have hu := unlink_eq hpe hn hp
  have hR := ring_unlink hring hndR hn
  have hpm : p ∈ ringOf l (s.seq l) := by rw [hmemR]; simp
  have hem : Addr.elem e ∈ ringOf l (s.seq l) := by rw [hmemR]; simp
  have hnm' : n ∈ ringOf l (s.seq l) := by rw [hmemR]; exact hnm
  have hnotin : Addr.elem e ∉ us ++ a :: vs := by
    rw [← hR0, elem_mem_ringOf]
    intro hc
    rw [List.nodup_append] at hnd
    rcases List.mem_append.mp hc with hc | hc
    · exact hnd.2.2 e hc e (by simp) rfl
    · exact (List.nodup_cons.mp hnd.2.1).1 hc
  have hsubR : ∀ x, x ∈ us ++ a :: vs → x ∈ ringOf l (s.seq l) := by
    intro x hx
    rw [← hR0] at hx
    cases x with
    | root k => rw [root_mem_ringOf] at *; exact hx
    | elem k => rw [elem_mem_ringOf] at *; rw [hs]; simp at hx ⊢; tauto
  have hndN : (us ++ a :: vs).Nodup := by
    rw [← hR0, nodup_ringOf]
    exact hnd.sublist (by simp)
  rw [← h2, hR0] at hR
  obtain ⟨m, hmm, hm⟩ := ring_next_mem hR (x := a) (by simp)
  have hL := ring_link hR hndN hnotin hm
  refine ⟨{ h with next := upd (upd (upd h.next p (some n)) (.elem e) (some m)) a (some (.elem e)),
                   prev := upd (upd (upd h.prev n (some p)) (.elem e) (some a)) m (some (.elem e)) }, ?_, ?_⟩
  · unfold move
    rw [if_neg hae, hu]
    simp only
    rw [link_eq hae.symm hm]
  · have ham : a ∈ ringOf l (s.seq l) := hsubR a (by simp)
    have hmm' : m ∈ ringOf l (s.seq l) := hsubR m hmm
    have hperm : (xs ++ p :: Addr.elem e :: bs.map Addr.elem).Perm (us ++ a :: .elem e :: vs) := by
      have q1 : (xs ++ p :: Addr.elem e :: bs.map Addr.elem).Perm (.elem e :: (xs ++ p :: bs.map .elem)) := by
        have : (p :: Addr.elem e :: bs.map Addr.elem).Perm (Addr.elem e :: p :: bs.map Addr.elem) := List.Perm.swap _ _ _
        exact (this.append_left xs).trans List.perm_middle
      have q2 : (us ++ a :: Addr.elem e :: vs).Perm (.elem e :: (us ++ a :: vs)) := by
        have : (a :: Addr.elem e :: vs).Perm (Addr.elem e :: a :: vs) := List.Perm.swap _ _ _
        exact (this.append_left us).trans List.perm_middle
      rw [← h2, hR0] at q1
      exact q1.trans q2.symm
    have hmemF : ∀ x, x ∈ f (as ++ bs) ↔ x ∈ s.seq l := by
      intro x
      rw [← elem_mem_ringOf (l := l), hR', ← elem_mem_ringOf (l := l), hmemR]
      exact hperm.mem_iff.symm
    refine rep_change R l (f (as ++ bs)) ?_ ?_ ?_ ?_ ?_ ?_ ?_ ?_ rfl rfl
    · rw [hR']; exact hL
    · intro x hx
      have h3 : x ≠ .elem e := by rintro rfl; exact hx hem
      have h4 : x ≠ p := by rintro rfl; exact hx hpm
      have h5 : x ≠ a := by rintro rfl; exact hx ham
      simp only [upd_ne _ _ h3, upd_ne _ _ h4, upd_ne _ _ h5]
    · intro x hx
      have h3 : x ≠ .elem e := by rintro rfl; exact hx hem
      have h4 : x ≠ n := by rintro rfl; exact hx hnm'
      have h5 : x ≠ m := by rintro rfl; exact hx hmm'
      simp only [upd_ne _ _ h3, upd_ne _ _ h4, upd_ne _ _ h5]
    · rw [← nodup_ringOf (l := l), hR']
      exact hperm.nodup_iff.mp hndR
    · exact fun x hx => (hmemF x).mp hx
    · intro x
      rw [if_neg]
      rintro ⟨h3, h4⟩
      exact h4 ((hmemF x).mpr h3)
    · have e1 := congrArg List.length hR'
      have e2 := hperm.length_eq
      have e3 := congrArg List.length h1
      rw [← hs] at e3
      simp only [R.len]
      simp [ringOf] at e1 e2 e3 ⊢
      omega
    · intro l' _; rfl

/-! ### Observers -/

theorem prev_root_eq {h : Heap V} {l : Nat} {xs : List Nat} (hr : Ring h.next h.prev (ringOf l xs)) :
    ∃ us p, h.prev (.root l) = some p ∧ (∀ zs, ringOf l (xs ++ zs) = us ++ p :: zs.map .elem) ∧
      p = (xs.getLast?.map Addr.elem).getD (.root l) := by
  rcases List.eq_nil_or_concat xs with rfl | ⟨xs, p, rfl⟩
  · exact ⟨[], .root l, (ring_single hr).2, by simp [ringOf], by simp⟩
  · refine ⟨.root l :: xs.map .elem, .elem p, ?_, by simp [ringOf], by simp⟩
    refine (ring_wrap (nx := h.next) (pv := h.prev) (q := .root l) (zs := xs.map .elem) ?_).2
    simpa [ringOf] using hr

theorem next_root_eq {h : Heap V} {l : Nat} {xs : List Nat} (hr : Ring h.next h.prev (ringOf l xs)) :
    h.next (.root l) = some ((xs.head?.map Addr.elem).getD (.root l)) := by
  cases xs with
  | nil => simpa using (ring_single hr).1
  | cons x xs => simpa using (ring_adj (xs := []) (p := .root l) (q := .elem x) (ys := xs.map .elem) hr).1

theorem rep_front {h : Heap V} {s : Spec.State V} (R : Rep h s) (l : Nat) :
    front h l = (s.seq l).head?.map Addr.elem := by
  unfold front
  rw [R.len]
  rcases hx : s.seq l with _ | ⟨x, xs⟩
  · simp
  · have hr := R.ring_of_mem (l := l) (e := x) (by rw [hx]; simp)
    rw [if_neg (by simp; omega), next_root_eq hr, hx]
    simp

theorem rep_back {h : Heap V} {s : Spec.State V} (R : Rep h s) (l : Nat) :
    back h l = (s.seq l).getLast?.map Addr.elem := by
  unfold back
  rw [R.len]
  rcases List.eq_nil_or_concat (s.seq l) with hx | ⟨xs, x, hx⟩
  · simp [hx]
  · rw [List.concat_eq_append] at hx
    have hr := R.ring_of_mem (l := l) (e := x) (by rw [hx]; simp)
    obtain ⟨us, p, h1, _, h3⟩ := prev_root_eq hr
    rw [if_neg (by rw [hx]; simp; omega), h1, h3, hx]
    simp

theorem rep_nextOf {h : Heap V} {s : Spec.State V} (R : Rep h s) {l e : Nat} {as bs : List Nat}
    (hs : s.seq l = as ++ e :: bs) : nextOf h e = bs.head?.map Addr.elem := by
  have he : e ∈ s.seq l := by rw [hs]; simp
  have hr := R.ring_of_mem he
  unfold nextOf
  rw [(R.own e l).mpr he]
  simp only
  rw [hs] at hr
  cases bs with
  | nil =>
    have : h.next (.elem e) = some (.root l) := by
      refine (ring_wrap (nx := h.next) (pv := h.prev) (q := .root l) (zs := as.map .elem) (p := .elem e) ?_).1
      simpa [ringOf] using hr
    simp [this]
  | cons b bs =>
    have : h.next (.elem e) = some (.elem b) := by
      refine (ring_adj (nx := h.next) (pv := h.prev) (xs := .root l :: as.map .elem) (p := .elem e) (q := .elem b) (ys := bs.map .elem) ?_).1
      simpa [ringOf] using hr
    simp [this]

theorem rep_prevOf {h : Heap V} {s : Spec.State V} (R : Rep h s) {l e : Nat} {as bs : List Nat}
    (hs : s.seq l = as ++ e :: bs) : prevOf h e = as.getLast?.map Addr.elem := by
  have he : e ∈ s.seq l := by rw [hs]; simp
  have hr := R.ring_of_mem he
  unfold prevOf
  rw [(R.own e l).mpr he]
  simp only
  rw [hs] at hr
  rcases List.eq_nil_or_concat as with rfl | ⟨as, a, rfl⟩
  · have : h.prev (.elem e) = some (.root l) := by
      refine (ring_adj (nx := h.next) (pv := h.prev) (xs := []) (p := .root l) (q := .elem e) (ys := bs.map .elem) ?_).2
      simpa [ringOf] using hr
    simp [this]
  · have : h.prev (.elem e) = some (.elem a) := by
      refine (ring_adj (nx := h.next) (pv := h.prev) (xs := .root l :: as.map .elem) (p := .elem a) (q := .elem e) (ys := bs.map .elem) ?_).2
      simpa [ringOf] using hr
    simp [this]

theorem rep_no_list {h : Heap V} {s : Spec.State V} (R : Rep h s) {e : Nat} (he : ∀ l, e ∉ s.seq l) :
    nextOf h e = none ∧ prevOf h e = none := by
  have : h.owner e = none := by
    cases ho : h.owner e with
    | none => rfl
    | some l => exact absurd ((R.own e l).mp ho) (he l)
  simp [nextOf, prevOf, this]

/-! ### Insertions and moves -/

theorem before_split {m e : Nat} {as bs : List Nat} (h : m ∉ as) :
    Spec.before m e (as ++ m :: bs) = as ++ e :: m :: bs := by
  induction as with
  | nil => simp [Spec.before]
  | cons a as ih =>
    have h1 : a ≠ m := fun hc => h (by simp [hc])
    have h2 : m ∉ as := fun hc => h (by simp [hc])
    simp [Spec.before, h1, ih h2]

theorem after_split {m e : Nat} {as bs : List Nat} (h : m ∉ as) :
    Spec.after m e (as ++ m :: bs) = as ++ m :: e :: bs := by
  induction as with
  | nil => simp [Spec.after]
  | cons a as ih =>
    have h1 : a ≠ m := fun hc => h (by simp [hc])
    have h2 : m ∉ as := fun hc => h (by simp [hc])
    simp [Spec.after, h1, ih h2]

theorem nodup_not_left {m : Nat} {as bs : List Nat} (h : (as ++ m :: bs).Nodup) : m ∉ as := by
  intro hc
  rw [List.nodup_append] at h
  exact h.2.2 m hc m (by simp) rfl

theorem split_unique {m : Nat} {as bs as' bs' : List Nat} (h : m ∉ as) (h' : m ∉ as')
    (he : as ++ m :: bs = as' ++ m :: bs') : as = as' := by
  induction as generalizing as' with
  | nil =>
    cases as' with
    | nil => rfl
    | cons a as' => simp at he; exact absurd (by simp [he.1]) h'
  | cons a as ih =>
    cases as' with
    | nil => simp at he; exact absurd (by simp [he.1]) h
    | cons a' as' =>
      simp at he
      rw [he.1, ih (fun hc => h (by simp [hc])) (fun hc => h' (by simp [hc])) he.2]

theorem ring_split' (l : Nat) (as : List Nat) :
    ∃ xs p, ∀ zs : List Nat, ringOf l (as ++ zs) = xs ++ p :: zs.map .elem := by
  rcases List.eq_nil_or_concat as with rfl | ⟨as, p, rfl⟩
  · exact ⟨[], .root l, by simp [ringOf]⟩
  · exact ⟨.root l :: as.map .elem, .elem p, by simp [ringOf]⟩

theorem rep_pushFront {h : Heap V} {s : Spec.State V} (R : Rep h s) (l : Nat) (v : V)
    (hr : Ring h.next h.prev (ringOf l (s.seq l))) :
    ∃ h', insertValue h l v (some (.root l)) = some h' ∧ Rep h' (s.pushFront l v) :=
  rep_insert R l v (.root l) [] ((s.seq l).map .elem) _ hr rfl rfl

theorem rep_pushBack {h : Heap V} {s : Spec.State V} (R : Rep h s) (l : Nat) (v : V)
    (hr : Ring h.next h.prev (ringOf l (s.seq l))) :
    ∃ h', insertValue h l v (h.prev (.root l)) = some h' ∧ Rep h' (s.pushBack l v) := by
  obtain ⟨us, p, h1, h2, _⟩ := prev_root_eq hr
  rw [h1]
  refine rep_insert R l v p us [] _ hr (by simpa using h2 []) ?_
  simpa using h2 [s.fresh]

theorem mem_add {s : Spec.State V} {l : Nat} {v : V} {f : Nat → List Nat → List Nat} {e : Nat}
    (h : e ∈ f s.fresh (s.seq l)) : e ∈ (s.add l v f).seq l := by
  simpa [Spec.State.add] using h

theorem copyLoop_back {l o : Nat} {val : Nat → V} : ∀ (todo done extra : List Nat) (h : Heap V) (s : Spec.State V),
    Rep h s → Ring h.next h.prev (ringOf l (s.seq l)) → s.seq o = done ++ todo ++ extra →
    (∀ x ∈ todo, s.value x = val x) →
    ∃ h', copyLoop l (fun h => h.prev (.root l)) nextOf todo.length ((todo ++ extra).head?.map Addr.elem) h = some h' ∧
      Rep h' (todo.foldl (fun t x => t.pushBack l (val x)) s) := by
  intro todo
  induction todo with
  | nil => intro done extra h s R _ _ _; exact ⟨h, by simp [copyLoop], R⟩
  | cons x todo ih =>
    intro done extra h s R hr hs hv
    obtain ⟨h1, e1, R1⟩ := rep_pushBack R l (val x) hr
    have hr1 : Ring h1.next h1.prev (ringOf l ((s.pushBack l (val x)).seq l)) :=
      R1.ring_of_mem (e := s.fresh) (mem_add (by simp))
    obtain ⟨extra', hs'⟩ : ∃ extra', (s.pushBack l (val x)).seq o = (done ++ [x]) ++ todo ++ extra' := by
      by_cases hl : o = l
      · exact ⟨extra ++ [s.fresh], by subst hl; simp [Spec.State.pushBack, Spec.State.add, hs]⟩
      · exact ⟨extra, by simp [Spec.State.pushBack, Spec.State.add, hs, hl]⟩
    have hv' : ∀ y ∈ todo, (s.pushBack l (val x)).value y = val y := by
      intro y hy
      have : y < s.fresh := R.lt o y (by rw [hs]; simp [hy])
      have : y ≠ s.fresh := by omega
      simp only [Spec.State.pushBack, Spec.State.add, if_neg this]
      exact hv y (by simp [hy])
    obtain ⟨h2, e2, R2⟩ := ih (done ++ [x]) extra' h1 _ R1 hr1 hs' hv'
    refine ⟨h2, ?_, R2⟩
    simp only [List.length_cons, List.cons_append, List.head?_cons, Option.map_some, copyLoop]
    rw [R.value, hv x (by simp), e1]
    simp only
    rw [rep_nextOf R1 (l := o) (as := done) (bs := todo ++ extra') (by rw [hs']; simp)]
    exact e2

theorem copyLoop_front {l o : Nat} {val : Nat → V} : ∀ (todo done extra : List Nat) (h : Heap V) (s : Spec.State V),
    Rep h s → Ring h.next h.prev (ringOf l (s.seq l)) → s.seq o = extra ++ todo.reverse ++ done →
    (∀ x ∈ todo, s.value x = val x) →
    ∃ h', copyLoop l (fun _ => some (.root l)) prevOf todo.length
        ((extra ++ todo.reverse).getLast?.map Addr.elem) h = some h' ∧
      Rep h' (todo.foldl (fun t x => t.pushFront l (val x)) s) := by
  intro todo
  induction todo with
  | nil => intro done extra h s R _ _ _; exact ⟨h, by simp [copyLoop], R⟩
  | cons x todo ih =>
    intro done extra h s R hr hs hv
    obtain ⟨h1, e1, R1⟩ := rep_pushFront R l (val x) hr
    have hr1 : Ring h1.next h1.prev (ringOf l ((s.pushFront l (val x)).seq l)) :=
      R1.ring_of_mem (e := s.fresh) (mem_add (by simp))
    obtain ⟨extra', hs'⟩ : ∃ extra', (s.pushFront l (val x)).seq o = extra' ++ todo.reverse ++ (x :: done) := by
      by_cases hl : o = l
      · exact ⟨s.fresh :: extra, by subst hl; simp [Spec.State.pushFront, Spec.State.add, hs]⟩
      · exact ⟨extra, by simp [Spec.State.pushFront, Spec.State.add, hs, hl]⟩
    have hv' : ∀ y ∈ todo, (s.pushFront l (val x)).value y = val y := by
      intro y hy
      have : y < s.fresh := R.lt o y (by rw [hs]; simp [hy])
      have : y ≠ s.fresh := by omega
      simp only [Spec.State.pushFront, Spec.State.add, if_neg this]
      exact hv y (by simp [hy])
    obtain ⟨h2, e2, R2⟩ := ih (x :: done) extra' h1 _ R1 hr1 hs' hv'
    refine ⟨h2, ?_, R2⟩
    have hl : (extra ++ (x :: todo).reverse).getLast? = some x := by
      rw [List.reverse_cons, ← List.append_assoc, List.getLast?_concat]
    simp only [List.length_cons, hl, Option.map_some, copyLoop]
    rw [R.value, hv x (by simp), e1]
    simp only
    rw [rep_prevOf R1 (l := o) (as := extra' ++ todo.reverse) (bs := done) (by rw [hs'])]
    exact e2

/-- Every operation does what the specification says, without a nil dereference. -/
theorem rep_exec {h : Heap V} {s : Spec.State V} (R : Rep h s) (op : Op V) :
    ∃ h', exec h op = some h' ∧ Rep h' (Spec.exec s op) := by
  cases op with
  | newList l =>
    obtain ⟨R1, _⟩ := rep_lazyInit R l
    exact ⟨_, rfl, R1⟩
  | remove l e =>
    simp only [exec, Spec.exec]
    by_cases he : e ∈ s.seq l
    · rw [if_pos ((R.own e l).mpr he)]
      exact rep_remove R l e he
    · rw [if_neg (fun hc => he ((R.own e l).mp hc)), List.erase_of_not_mem he]
      refine ⟨h, rfl, ?_⟩
      have : s.set l (s.seq l) = s := by
        unfold Spec.State.set
        congr
        funext l'
        split
        · rename_i hl; rw [hl]
        · rfl
      rw [this]
      exact R
  | pushFront l v =>
    obtain ⟨R1, hr⟩ := rep_lazyInit R l
    exact rep_pushFront R1 l v hr
  | pushBack l v =>
    obtain ⟨R1, hr⟩ := rep_lazyInit R l
    exact rep_pushBack R1 l v hr
  | insertBefore l v m =>
    simp only [exec, Spec.exec]
    by_cases he : m ∈ s.seq l
    · rw [if_neg (not_not_intro ((R.own m l).mpr he)), if_pos he]
      have hr := R.ring_of_mem he
      have hnd := R.nodup l
      obtain ⟨as, bs, hs⟩ := List.append_of_mem he
      have hm := nodup_not_left (hs ▸ hnd)
      obtain ⟨xs, p, hx⟩ := ring_split' l as
      have hp : h.prev (.elem m) = some p := by
        refine (ring_adj (nx := h.next) (pv := h.prev) (xs := xs) (p := p) (q := .elem m) (ys := bs.map .elem) ?_).2
        have := hx (m :: bs)
        rw [hs, this] at hr
        simpa using hr
      rw [hp]
      refine rep_insert R l v p xs ((m :: bs).map .elem) (Spec.before m) hr (by rw [hs, hx]) ?_
      rw [hs, before_split hm, hx]
      simp
    · rw [if_pos (fun hc => he ((R.own m l).mp hc)), if_neg he]
      exact ⟨h, rfl, R⟩
  | insertAfter l v m =>
    simp only [exec, Spec.exec]
    by_cases he : m ∈ s.seq l
    · rw [if_neg (not_not_intro ((R.own m l).mpr he)), if_pos he]
      have hr := R.ring_of_mem he
      have hnd := R.nodup l
      obtain ⟨as, bs, hs⟩ := List.append_of_mem he
      have hm := nodup_not_left (hs ▸ hnd)
      refine rep_insert R l v (.elem m) (.root l :: as.map .elem) (bs.map .elem) (Spec.after m) hr
        (by rw [hs]; simp [ringOf]) ?_
      rw [hs, after_split hm]
      simp [ringOf]
    · rw [if_pos (fun hc => he ((R.own m l).mp hc)), if_neg he]
      exact ⟨h, rfl, R⟩
  | moveToFront l e =>
    simp only [exec, Spec.exec]
    by_cases he : e ∈ s.seq l
    · rw [if_pos he]
      have hr := R.ring_of_mem he
      by_cases hf : h.next (.root l) = some (.elem e)
      · rw [if_pos (.inr hf)]
        refine ⟨h, rfl, ?_⟩
        rw [next_root_eq hr] at hf
        rcases hx : s.seq l with _ | ⟨x, xs⟩
        · rw [hx] at he; cases he
        · rw [hx] at hf
          simp at hf
          subst hf
          rw [List.erase_cons_head, ← hx]
          have : s.set l (s.seq l) = s := by
            unfold Spec.State.set
            congr
            funext l'
            split
            · rename_i hl; rw [hl]
            · rfl
          rw [this]
          exact R
      · rw [if_neg]
        · exact rep_move R l e he (.root l) (by simp) [] (((s.seq l).erase e).map .elem) (fun xs => e :: xs) rfl rfl
        · rintro (hc | hc)
          · exact hc ((R.own e l).mpr he)
          · exact hf hc
    · rw [if_neg he, if_pos (.inl (fun hc => he ((R.own e l).mp hc)))]
      exact ⟨h, rfl, R⟩
  | moveToBack l e =>
    simp only [exec, Spec.exec]
    by_cases he : e ∈ s.seq l
    · rw [if_pos he]
      have hr := R.ring_of_mem he
      have hnd := R.nodup l
      obtain ⟨us, p, h1, _, h3⟩ := prev_root_eq hr
      rcases List.eq_nil_or_concat (s.seq l) with hx | ⟨xs, x, hx⟩
      · rw [hx] at he; cases he
      rw [List.concat_eq_append] at hx
      have hp : p = .elem x := by rw [h3, hx]; simp
      by_cases hf : x = e
      · rw [if_pos (.inr (by rw [h1, hp, hf]))]
        refine ⟨h, rfl, ?_⟩
        have : (s.seq l).erase e ++ [e] = s.seq l := by
          have h4 := hnd
          rw [hx] at h4
          subst hf
          rw [hx, erase_split h4]
          simp
        rw [this]
        have : s.set l (s.seq l) = s := by
          unfold Spec.State.set
          congr
          funext l'
          split
          · rename_i hl; rw [hl]
          · rfl
        rw [this]
        exact R
      · rw [if_neg]
        · rw [h1, hp]
          have he' : e ∈ xs := by
            rw [hx] at he
            rcases List.mem_append.mp he with h4 | h4
            · exact h4
            · exact absurd (List.mem_singleton.mp h4).symm hf
          have h4 : (s.seq l).erase e = xs.erase e ++ [x] := by
            rw [hx, List.erase_append_left _ he']
          refine rep_move R l e he (.elem x) (by simpa using fun h => hf h.symm) (.root l :: (xs.erase e).map .elem) []
            (fun xs => xs ++ [e]) ?_ ?_
          · rw [h4]; simp [ringOf]
          · rw [h4]; simp [ringOf]
        · rintro (hc | hc)
          · exact hc ((R.own e l).mpr he)
          · rw [h1, hp] at hc
            simp at hc
            exact hf hc
    · rw [if_neg he, if_pos (.inl (fun hc => he ((R.own e l).mp hc)))]
      exact ⟨h, rfl, R⟩
  | moveBefore l e m =>
    simp only [exec, Spec.exec]
    by_cases hc : e ∈ s.seq l ∧ m ∈ s.seq l ∧ e ≠ m
    · obtain ⟨he, hm, hne⟩ := hc
      rw [if_neg (c := h.owner e ≠ some l ∨ _) (by rw [Ne, Ne, R.own, R.own]; tauto), if_pos ⟨he, hm, hne⟩]
      have hr := R.ring_of_mem he
      have hnd := R.nodup l
      have hm' : m ∈ (s.seq l).erase e := (List.mem_erase_of_ne (Ne.symm hne)).mpr hm
      have hnd' : ((s.seq l).erase e).Nodup := hnd.sublist List.erase_sublist
      obtain ⟨as, bs, hs⟩ := List.append_of_mem hm
      obtain ⟨xs, p, hx⟩ := ring_split' l as
      have hp : h.prev (.elem m) = some p := by
        refine (ring_adj (nx := h.next) (pv := h.prev) (xs := xs) (p := p) (q := .elem m) (ys := bs.map .elem) ?_).2
        have := hx (m :: bs)
        rw [hs, this] at hr
        simpa using hr
      rw [hp]
      by_cases hpe : p = .elem e
      · subst hpe
        refine ⟨h, by simp [move?, move], ?_⟩
        rcases List.eq_nil_or_concat as with ha | ⟨as', a, ha⟩
        · have := hx []
          rw [ha] at this
          simp [ringOf] at this
          have := congrArg List.getLast? this
          simp at this
        · rw [List.concat_eq_append] at ha
          have h6 := hx []
          rw [ha] at h6
          have h7 := congrArg List.getLast? h6
          simp [ringOf] at h7
          have h8 : a = e := by
            rw [← List.cons_append, List.getLast?_concat] at h7
            simpa using h7
          subst h8
          have h9 : s.seq l = as' ++ a :: m :: bs := by rw [hs, ha]; simp
          have h10 : (s.seq l).erase a = as' ++ m :: bs := by
            rw [h9]; rw [h9] at hnd; exact erase_split hnd
          have h11 : m ∉ as' := by
            rw [h10] at hnd'
            exact nodup_not_left hnd'
          have : s.set l (Spec.before m a ((s.seq l).erase a)) = s := by
            rw [h10, before_split h11, ← h9]
            unfold Spec.State.set
            congr
            funext l'
            split
            · rename_i hl; rw [hl]
            · rfl
          rw [this]
          exact R
      · simp only [move?]
        obtain ⟨as2, bs2, hs2⟩ := List.append_of_mem hm'
        have hm2 : m ∉ as2 := by rw [hs2] at hnd'; exact nodup_not_left hnd'
        -- the element before `m` is still before `m` after `e` has been removed
        have hkey : ∃ us, ringOf l as2 = us ++ [p] := by
          have hmas : m ∉ as := by rw [hs] at hnd; exact nodup_not_left hnd
          have has2 : as2 = as.erase e := by
            by_cases hea : e ∈ as
            · have : (s.seq l).erase e = as.erase e ++ m :: bs := by rw [hs, List.erase_append_left _ hea]
              rw [hs2] at this
              refine split_unique hm2 ?_ this
              exact fun hc => hmas (List.mem_of_mem_erase hc)
            · have : (s.seq l).erase e = as ++ m :: (bs.erase e) := by
                rw [hs, List.erase_append_right _ hea, List.erase_cons_tail (by simpa using Ne.symm hne)]
              rw [hs2] at this
              rw [List.erase_of_not_mem hea]
              exact split_unique hm2 hmas this
          rcases List.eq_nil_or_concat as with ha | ⟨as', a, ha⟩
          · have h6 := hx []
            rw [ha] at h6 has2
            simp [ringOf] at h6
            refine ⟨[], ?_⟩
            have := congrArg List.getLast? h6
            simp at this
            rw [has2, ← this]
            simp [ringOf]
          · rw [List.concat_eq_append] at ha
            have h6 := hx []
            rw [ha] at h6
            have h7 := congrArg List.getLast? h6
            simp [ringOf] at h7
            rw [← List.cons_append, List.getLast?_concat] at h7
            simp at h7
            subst h7
            have hae : a ≠ e := fun hc => hpe (by rw [hc])
            rw [has2, ha]
            by_cases hea : e ∈ as'
            · rw [List.erase_append_left _ hea]
              exact ⟨.root l :: (as'.erase e).map .elem, by simp [ringOf]⟩
            · rw [List.erase_append_right _ hea, List.erase_of_not_mem (by simpa using Ne.symm hae)]
              exact ⟨.root l :: as'.map .elem, by simp [ringOf]⟩
        obtain ⟨us, hus⟩ := hkey
        refine rep_move R l e he p (fun hc => hpe hc.symm) us ((m :: bs2).map .elem) (Spec.before m e) ?_ ?_
        · rw [hs2]
          have : ringOf l (as2 ++ m :: bs2) = ringOf l as2 ++ (m :: bs2).map .elem := by simp [ringOf]
          rw [this, hus]
          simp
        · rw [hs2, before_split hm2]
          have : ringOf l (as2 ++ e :: m :: bs2) = ringOf l as2 ++ (e :: m :: bs2).map .elem := by simp [ringOf]
          rw [this, hus]
          simp
    · rw [if_neg hc, if_pos (by rw [Ne, Ne, R.own, R.own]; tauto)]
      exact ⟨h, rfl, R⟩
  | moveAfter l e m =>
    simp only [exec, Spec.exec]
    by_cases hc : e ∈ s.seq l ∧ m ∈ s.seq l ∧ e ≠ m
    · obtain ⟨he, hm, hne⟩ := hc
      rw [if_neg (c := h.owner e ≠ some l ∨ _) (by rw [Ne, Ne, R.own, R.own]; tauto), if_pos ⟨he, hm, hne⟩]
      have hnd := R.nodup l
      have hm' : m ∈ (s.seq l).erase e := (List.mem_erase_of_ne (Ne.symm hne)).mpr hm
      have hnd' : ((s.seq l).erase e).Nodup := hnd.sublist List.erase_sublist
      obtain ⟨as, bs, hs⟩ := List.append_of_mem hm'
      have hm2 : m ∉ as := by rw [hs] at hnd'; exact nodup_not_left hnd'
      refine rep_move R l e he (.elem m) (by simpa using hne) (.root l :: as.map .elem) (bs.map .elem) (Spec.after m e) ?_ ?_
      · rw [hs]; simp [ringOf]
      · rw [hs, after_split hm2]; simp [ringOf]
    · rw [if_neg hc, if_pos (by rw [Ne, Ne, R.own, R.own]; tauto)]
      exact ⟨h, rfl, R⟩
  | pushBackList l o =>
    obtain ⟨R1, hr⟩ := rep_lazyInit R l
    obtain ⟨h', e1, R2⟩ := copyLoop_back (o := o) (val := s.value) (s.seq o) [] [] _ s R1 hr (by simp) (fun _ _ => rfl)
    refine ⟨h', ?_, R2⟩
    simp only [exec]
    rw [R1.len, rep_front R1]
    simpa using e1
  | pushFrontList l o =>
    obtain ⟨R1, hr⟩ := rep_lazyInit R l
    obtain ⟨h', e1, R2⟩ := copyLoop_front (o := o) (val := s.value) (s.seq o).reverse [] [] _ s R1 hr (by simp)
      (fun _ _ => rfl)
    refine ⟨h', ?_, R2⟩
    simp only [exec]
    rw [R1.len, rep_back R1]
    simpa using e1

/-- Every sequence of operations. -/
theorem rep_execAll {h : Heap V} {s : Spec.State V} (R : Rep h s) (ops : List (Op V)) :
    ∃ h', execAll h ops = some h' ∧ Rep h' (ops.foldl Spec.exec s) := by
  induction ops generalizing h s with
  | nil => exact ⟨h, rfl, R⟩
  | cons op ops ih =>
    obtain ⟨h1, e1, R1⟩ := rep_exec R op
    obtain ⟨h2, e2, R2⟩ := ih R1
    exact ⟨h2, by simp [execAll, e1, e2], R2⟩

end Verif.LinkedList
