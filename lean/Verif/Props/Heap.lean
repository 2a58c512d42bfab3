import Verif.Heap.Proofs
/-
Properties C36 (true extremes), C37 (Max is an observation), C38 (Remove and Update).
-/
namespace Verif.Heap

/-! ### Specification: a bag of items -/

namespace Spec

variable (lt : Nat → Nat → Bool)

/-- `x` is in the bag and no item has priority over it. -/
def Smallest (bag : List Nat) (x : Nat) : Prop := x ∈ bag ∧ ∀ y ∈ bag, lt y x = false
/-- `x` is in the bag and has priority over no item. -/
def Largest (bag : List Nat) (x : Nat) : Prop := x ∈ bag ∧ ∀ y ∈ bag, lt x y = false

/-- What a call on a double-ended priority queue may return, and what it leaves. -/
inductive Step : List Nat → Op → Option Nat → List Nat → Prop
  | push (bag x) : Step bag (.push x) none (x :: bag)
  | empty (op) (h : ∀ x, op ≠ .push x) : Step [] op none []
  | min (bag x) (h : Smallest lt bag x) : Step bag .min (some x) bag
  | max (bag x) (h : Largest lt bag x) : Step bag .max (some x) bag
  | popMin (bag x) (h : Smallest lt bag x) : Step bag .popMin (some x) (bag.erase x)
  | popMax (bag x) (h : Largest lt bag x) : Step bag .popMax (some x) (bag.erase x)

/-- A sequence of calls. -/
inductive Run : List Nat → List Op → List (Option Nat) → List Nat → Prop
  | nil (bag) : Run bag [] [] bag
  | cons (bag op r bag' ops rs bag'') (h : Step lt bag op r bag') (h' : Run bag' ops rs bag'') :
      Run bag (op :: ops) (r :: rs) bag''

end Spec

variable {lt : Nat → Nat → Bool}

theorem smallest_perm {b b' : List Nat} (h : b.Perm b') {x : Nat} (hs : Spec.Smallest lt b x) : Spec.Smallest lt b' x :=
  ⟨h.mem_iff.mp hs.1, fun y hy => hs.2 y (h.mem_iff.mpr hy)⟩

theorem largest_perm {b b' : List Nat} (h : b.Perm b') {x : Nat} (hs : Spec.Largest lt b x) : Spec.Largest lt b' x :=
  ⟨h.mem_iff.mp hs.1, fun y hy => hs.2 y (h.mem_iff.mpr hy)⟩

theorem mem_contents {h : Heap} {x : Nat} : x ∈ contents h ↔ ∃ d, d < h.len ∧ h.slot d = x := by
  simp [contents]

/-- The operation is allowed: no `Push` while the maximum is set aside. -/
def okOp (maxed : Bool) : Op → Prop
  | .push _ => maxed = false
  | _ => True

theorem contents_nil_iff {h : Heap} : contents h = [] ↔ h.len = 0 := by
  simp [contents]

theorem exec_spec (S : SWO lt) {h : Heap} (I : Inv lt h) {bag : List Nat} (hb : (contents h).Perm bag) (op : Op)
    (hop : okOp h.maxed op) :
    ∃ bag', Spec.Step lt bag op (exec lt h op).2 bag' ∧ (contents (exec lt h op).1).Perm bag' ∧
      Inv lt (exec lt h op).1 ∧ ((exec lt h op).1.maxed = true → h.maxed = true ∧ op = .min ∨ op = .max) := by
  have hempty : h.len = 0 → bag = [] := by
    intro h0
    have := contents_nil_iff.mpr h0
    rw [this] at hb
    exact hb.nil_eq.symm
  -- the two kinds of states
  have hmin : 0 < h.len → Spec.Smallest lt bag (h.slot 0) := by
    intro h0
    refine smallest_perm hb ⟨mem_contents.mpr ⟨0, h0, rfl⟩, ?_⟩
    intro y hy
    obtain ⟨d, hd, rfl⟩ := mem_contents.mp hy
    cases hm : h.maxed with
    | false => exact min_of_ok (I.plain hm 0) d hd
    | true =>
      obtain ⟨_, h2, h3⟩ := I.maxed hm
      by_cases hdl : d < h.len - 1
      · exact min_of_ok (h2 0) d hdl
      · have : d = h.len - 1 := by omega
        rw [this]
        exact h3 0 h0
  have hset : 0 < h.len → ∀ h', h' = (if h.maxed then h else setMax lt h) →
      h'.len = h.len ∧ (contents h').Perm bag ∧ (∀ j, OK lt h'.slot (h.len - 1) j) ∧
      (∀ d, d < h.len → lt (h'.slot (h.len - 1)) (h'.slot d) = false) ∧ Spec.Largest lt bag (h'.slot (h.len - 1)) := by
    intro h0 h' hh'
    have key : h'.len = h.len ∧ (contents h').Perm bag ∧ (∀ j, OK lt h'.slot (h.len - 1) j) ∧
      (∀ d, d < h.len → lt (h'.slot (h.len - 1)) (h'.slot d) = false) := by
      cases hm : h.maxed with
      | false =>
        rw [hm] at hh'
        simp at hh'
        subst hh'
        obtain ⟨s1, s2, s3, s4, s5⟩ := setMax_spec S h0 (I.plain hm)
        refine ⟨s1, (contents_perm s1 s3).trans hb, s4, ?_⟩
        intro d hd
        obtain ⟨y, hy, hye⟩ := s3.inn hd
        rw [hye]
        exact s5 y hy
      | true =>
        rw [hm] at hh'
        simp at hh'
        subst hh'
        obtain ⟨_, h2, h3⟩ := I.maxed hm
        exact ⟨rfl, hb, h2, h3⟩
    refine ⟨key.1, key.2.1, key.2.2.1, key.2.2.2, ?_⟩
    refine largest_perm key.2.1 ⟨mem_contents.mpr ⟨h.len - 1, by rw [key.1]; omega, rfl⟩, ?_⟩
    intro y hy
    obtain ⟨d, hd, rfl⟩ := mem_contents.mp hy
    rw [key.1] at hd
    exact key.2.2.2 d hd
  cases op with
  | push x =>
    simp only [okOp] at hop
    refine ⟨x :: bag, .push bag x, ?_, ?_, ?_⟩
    · let h1 : Heap := { h with slot := fun y => if y = h.len then x else h.slot y, len := h.len + 1, maxed := false }
      have hpre : ∀ j d, Sub j d → d < h.len + 1 → ¬ (d = h.len ∧ j ≠ h.len) → PairOK lt h1.slot j d := by
        intro j d hd hdn hnb
        have hjd := hd.le
        by_cases hdl : d = h.len
        · have : j = h.len := by tauto
          subst this; subst hdl; exact ord_refl S _ _
        · have : j ≠ h.len := by omega
          simp only [PairOK, h1, if_neg hdl, if_neg this]
          exact I.plain hop j d hd (by omega)
      obtain ⟨u1, _⟩ := up_spec S (h := h1) (i := h.len) (n := h.len + 1) (by omega) hpre
      have hl := (up_frame (lt := lt) h1 h.len).1
      have hp : (contents (up lt h1 h.len)).Perm (contents h1) := contents_perm hl u1
      refine hp.trans ?_
      have : contents h1 = contents h ++ [x] := by
        simp only [contents, h1, List.range_succ, List.map_append, List.map_cons, List.map_nil, if_pos]
        congr 1
        apply List.map_congr_left
        intro a ha
        have := List.mem_range.mp ha
        rw [if_neg (by omega)]
      rw [this]
      exact (hb.append_right [x]).trans (List.perm_append_comm (l₁ := bag) (l₂ := [x]))
    · let h1 : Heap := { h with slot := fun y => if y = h.len then x else h.slot y, len := h.len + 1, maxed := false }
      have hpre : ∀ j d, Sub j d → d < h.len + 1 → ¬ (d = h.len ∧ j ≠ h.len) → PairOK lt h1.slot j d := by
        intro j d hd hdn hnb
        have hjd := hd.le
        by_cases hdl : d = h.len
        · have : j = h.len := by tauto
          subst this; subst hdl; exact ord_refl S _ _
        · have : j ≠ h.len := by omega
          simp only [PairOK, h1, if_neg hdl, if_neg this]
          exact I.plain hop j d hd (by omega)
      obtain ⟨_, u2⟩ := up_spec S (h := h1) (i := h.len) (n := h.len + 1) (by omega) hpre
      obtain ⟨hl, hm⟩ := up_frame (lt := lt) h1 h.len
      constructor
      · intro _
        show ∀ j, OK lt (up lt h1 h.len).slot (up lt h1 h.len).len j
        rw [hl]
        exact u2
      · intro hc
        have : (up lt h1 h.len).maxed = true := hc
        rw [hm] at this
        cases this
    · intro hc
      have : (up lt { h with slot := fun y => if y = h.len then x else h.slot y, len := h.len + 1, maxed := false }
        h.len).maxed = true := hc
      rw [(up_frame _ _).2] at this
      cases this
  | min =>
    refine ⟨bag, ?_, hb, I, fun hm => .inl ⟨hm, rfl⟩⟩
    simp only [exec, Heap.min]
    by_cases h0 : h.len = 0
    · rw [if_pos h0, hempty h0]
      exact .empty _ (by simp)
    · rw [if_neg h0]
      exact .min _ _ (hmin (by omega))
  | max =>
    simp only [exec, Heap.max]
    by_cases h0 : h.len = 0
    · rw [if_pos h0]
      refine ⟨bag, ?_, hb, I, fun _ => .inr trivial⟩
      rw [hempty h0]
      exact .empty _ (by simp)
    · rw [if_neg h0]
      simp only
      obtain ⟨k1, k2, k3, k4, k5⟩ := hset (by omega) _ rfl
      have e : (if h.maxed = true then h else { setMax lt h with maxed := true }) =
          { (if h.maxed = true then h else setMax lt h) with maxed := true } := by
        cases hm : h.maxed
        · simp
        · simp [← hm]
      rw [e]
      refine ⟨bag, ?_, k2, ?_, fun _ => .inr trivial⟩
      · simp only [k1]
        exact .max _ _ k5
      · constructor
        · intro hc; cases hc
        · intro _
          simp only [k1]
          exact ⟨by omega, k3, k4⟩
  | popMin =>
    simp only [exec, Heap.popMin]
    by_cases h0 : h.len = 0
    · rw [if_pos h0]
      refine ⟨bag, ?_, hb, I, ?_⟩
      · rw [hempty h0]; exact .empty _ (by simp)
      · intro hm
        have := (I.maxed hm).1
        omega
    · rw [if_neg h0]
      simp only [pop]
      have hok : ∀ j, j ≠ 0 → j < h.len - 1 → OK lt h.slot (h.len - 1) j := by
        intro j _ _
        cases hm : h.maxed with
        | false => exact ok_mono (I.plain hm j) (by omega)
        | true => exact (I.maxed hm).2.1 j
      obtain ⟨q1, q2, q3⟩ := inv_swap_root S (h := { h with maxed := false }) hok
      have hn : h.len - 1 + 1 = h.len := by omega
      rw [hn] at q3
      set hd := (down lt (swap { h with maxed := false } 0 (h.len - 1)) 0 (h.len - 1)).1 with hhd
      have hlen : hd.len = h.len := by rw [hhd, down_len]; rfl
      have hmx : hd.maxed = false := by rw [hhd, down_maxed]; rfl
      have hperm : (contents hd).Perm bag := (contents_perm hlen q3).trans hb
      rw [hlen, q2]
      refine ⟨bag.erase (h.slot 0), .popMin _ _ (hmin (by omega)), ?_, ?_, ?_⟩
      · have h1 := contents_pop (h := hd) (by omega)
        rw [hlen, q2] at h1
        have h2 := (h1.symm.trans hperm).erase (h.slot 0)
        rwa [List.erase_cons_head] at h2
      · constructor
        · intro _; exact q1
        · intro hc; have : hd.maxed = true := hc; rw [hmx] at this; cases this
      · intro hc; have : hd.maxed = true := hc; rw [hmx] at this; cases this
  | popMax =>
    simp only [exec, Heap.popMax]
    by_cases h0 : h.len = 0
    · rw [if_pos h0]
      refine ⟨bag, ?_, hb, I, ?_⟩
      · rw [hempty h0]; exact .empty _ (by simp)
      · intro hm
        have := (I.maxed hm).1
        omega
    · rw [if_neg h0]
      simp only [pop]
      obtain ⟨k1, k2, k3, k4, k5⟩ := hset (by omega) _ rfl
      set hd := (if h.maxed = true then h else setMax lt h) with hhd
      rw [k1]
      refine ⟨bag.erase (hd.slot (h.len - 1)), .popMax _ _ k5, ?_, ?_, ?_⟩
      · have h1 := contents_pop (h := hd) (by omega)
        rw [k1] at h1
        have h2 := (h1.symm.trans k2).erase (hd.slot (h.len - 1))
        rwa [List.erase_cons_head] at h2
      · constructor
        · intro _; exact k3
        · intro hc; cases hc
      · intro hc; cases hc

/-- No `Push` follows a `Max` unless a pop comes between them. -/
def NoPushAfterMax : Bool → List Op → Prop
  | _, [] => True
  | maxed, .push _ :: ops => maxed = false ∧ NoPushAfterMax false ops
  | maxed, .min :: ops => NoPushAfterMax maxed ops
  | _, .max :: ops => NoPushAfterMax true ops
  | _, .popMin :: ops => NoPushAfterMax false ops
  | _, .popMax :: ops => NoPushAfterMax false ops

theorem noPush_mono {ops : List Op} : ∀ {b : Bool}, NoPushAfterMax b ops → NoPushAfterMax false ops := by
  induction ops with
  | nil => intro b _; trivial
  | cons op ops ih =>
    intro b h
    cases op with
    | push x => exact ⟨rfl, h.2⟩
    | min => exact ih (b := b) h
    | _ => exact h

theorem noPush_noMax {ops : List Op} (h : Op.max ∉ ops) : NoPushAfterMax false ops := by
  induction ops with
  | nil => trivial
  | cons op ops ih =>
    have ih := ih (fun hc => h (by simp [hc]))
    cases op with
    | push x => exact ⟨rfl, ih⟩
    | max => exact absurd (by simp) h
    | _ => exact ih

theorem execAll_spec (S : SWO lt) : ∀ (ops : List Op) {h : Heap}, Inv lt h → ∀ {bag : List Nat},
    (contents h).Perm bag → NoPushAfterMax h.maxed ops →
    ∃ bag', Spec.Run lt bag ops (execAll lt h ops).2 bag' ∧ (contents (execAll lt h ops).1).Perm bag' ∧
      Inv lt (execAll lt h ops).1 := by
  intro ops
  induction ops with
  | nil => intro h I bag hb _; exact ⟨bag, .nil _, hb, I⟩
  | cons op ops ih =>
    intro h I bag hb hno
    have hop : okOp h.maxed op := by
      cases op with
      | push x => exact hno.1
      | _ => trivial
    obtain ⟨bag1, s1, s2, s3, s4⟩ := exec_spec S I hb op hop
    have hno' : NoPushAfterMax (exec lt h op).1.maxed ops := by
      have hall : NoPushAfterMax false ops := by
        cases op with
        | push x => exact hno.2
        | min => exact noPush_mono (b := h.maxed) hno
        | max => exact noPush_mono (b := true) hno
        | popMin => exact hno
        | popMax => exact hno
      cases hm : (exec lt h op).1.maxed with
      | false => exact hall
      | true =>
        rcases s4 hm with ⟨h1, rfl⟩ | rfl
        · rw [h1] at hno; exact hno
        · exact hno
    obtain ⟨bag2, r1, r2, r3⟩ := ih s3 s2 hno'
    exact ⟨bag2, .cons _ _ _ _ _ _ _ s1 r1, r2, r3⟩

theorem initLoop_spec (S : SWO lt) : ∀ (k : Nat) (h : Heap), (∀ j, k ≤ j → OK lt h.slot h.len j) →
    (initLoop lt k h).len = h.len ∧ (initLoop lt k h).maxed = h.maxed ∧
    PermOn (· < h.len) h.slot (initLoop lt k h).slot ∧ ∀ j, OK lt (initLoop lt k h).slot h.len j := by
  intro k
  induction k with
  | zero => intro h hok; exact ⟨rfl, rfl, PermOn.refl _ _, fun j => hok j (Nat.zero_le _)⟩
  | succ k ih =>
    intro h hok
    unfold initLoop
    obtain ⟨p1, p2, p3⟩ := down_spec S (h := h) (i := k) (n := h.len) (fun j hj hjk => hok j (by have := hj.le; omega))
    have hl : (down lt h k h.len).1.len = h.len := down_len _ _ _
    obtain ⟨r1, r2, r3, r4⟩ := ih (down lt h k h.len).1 (by
      intro j hj
      rw [hl]
      by_cases hs : Sub k j
      · exact p2 j hs
      · exact p3 j hs (hok j (by
          have : j ≠ k := fun hc => hs (hc ▸ .self)
          omega)))
    rw [hl] at r1 r3 r4
    exact ⟨r1, r2.trans (down_maxed _ _ _), (p1.mono (fun x hx => hx.2)).trans r3, r4⟩

theorem new_spec (S : SWO lt) (items : List Nat) :
    Inv lt (new lt items) ∧ (contents (new lt items)).Perm items ∧ (new lt items).maxed = false := by
  have hleaf : ∀ j, items.length / 2 ≤ j → OK lt (fun i => items.getD i 0) items.length j := by
    intro j hj d hd hdn
    rcases hd.down_cases with rfl | hc | hc
    · exact ord_refl S _ _
    · have := hc.le; omega
    · have := hc.le; omega
  obtain ⟨r1, r2, r3, r4⟩ := initLoop_spec S (items.length / 2)
    { slot := fun i => items.getD i 0, len := items.length, index := fun p => if p ∈ items then items.idxOf p else 0, maxed := false } hleaf
  refine ⟨⟨fun _ => ?_, fun hc => ?_⟩, ?_, r2⟩
  · unfold new; rw [r1]; exact r4
  · unfold new at hc; rw [r2] at hc; cases hc
  · refine (contents_perm r1 r3).trans ?_
    simp only [contents]
    have : (List.range items.length).map (fun i => items.getD i 0) = items := by
      apply List.ext_getElem
      · simp
      · intro i h1 h2
        simp [List.getD_eq_getElem?_getD, h2]
    rw [this]

/-! ### C36 -/

/-- C36. Starting from any initial contents, after any sequence of `Push`, `Min`, `PopMin`, `PopMax`, every
answer is that of a double-ended priority queue: `Min`/`PopMin` return a smallest and `PopMax` a largest
item, and a popped item is removed exactly once; the heap then holds exactly the items of the
specification, and a `Max` returns a largest one of them. `lt` is any strict weak order (ties allowed). -/
theorem C36_extremes (S : SWO lt) (items : List Nat) (ops : List Op) (hops : Op.max ∉ ops) :
    ∃ bag, Spec.Run lt items ops (execAll lt (new lt items) ops).2 bag ∧
      (contents (execAll lt (new lt items) ops).1).Perm bag ∧
      Spec.Step lt bag .max (exec lt (execAll lt (new lt items) ops).1 .max).2 bag := by
  obtain ⟨I, hp, hm⟩ := new_spec S items
  obtain ⟨bag, r1, r2, r3⟩ := execAll_spec S ops I hp (by rw [hm]; exact noPush_noMax hops)
  refine ⟨bag, r1, r2, ?_⟩
  obtain ⟨bag', s1, _⟩ := exec_spec S r3 r2 .max trivial
  generalize (exec lt (execAll lt (new lt items) ops).1 .max).2 = r at s1
  cases s1 with
  | empty _ => exact .empty _ (by simp)
  | max _ _ h => exact .max _ _ h

/-! ### C37 -/

/-- The order of the natural numbers, for concrete cases. -/
def natLt (x y : Nat) : Bool := decide (x < y)

theorem natLt_swo : SWO natLt := by
  constructor
  · intro x y h; simp [natLt] at *; omega
  · intro x y z h1 h2; simp [natLt] at *; omega

/-- C37 is violated: with items 1, 9, 8, 2, calling `Max` and then `Push 5` makes the next `PopMax` return 8
although 9 is in the heap; without the call of `Max` it returns 9. (`Max` moves the maximum to the last
slot, `streams/stores/min_max_heap.go:92-101`, and `Push` appends behind it.) -/
theorem C37_violated :
    (execAll natLt (new natLt [1, 9, 8, 2]) [.max, .push 5, .popMax]).2 = [some 9, none, some 8] ∧
    (execAll natLt (new natLt [1, 9, 8, 2]) [.push 5, .popMax]).2 = [none, some 9] ∧
    9 ∈ contents (execAll natLt (new natLt [1, 9, 8, 2]) [.max, .push 5, .popMax]).1 := by decide

/-- C37, the part that holds: calls of `Max` keep every answer right as long as no `Push` follows a `Max`
without a pop between them. Missing: that `Push`, which the code gets wrong. -/
theorem C37_answers_partial (S : SWO lt) (items : List Nat) (ops : List Op) (hops : NoPushAfterMax false ops) :
    ∃ bag, Spec.Run lt items ops (execAll lt (new lt items) ops).2 bag ∧
      (contents (execAll lt (new lt items) ops).1).Perm bag := by
  obtain ⟨I, hp, hm⟩ := new_spec S items
  obtain ⟨bag, r1, r2, _⟩ := execAll_spec S ops I hp (by rw [hm]; exact hops)
  exact ⟨bag, r1, r2⟩

/-- The operations other than `Max`. -/
def dropMax (ops : List Op) : List Op := ops.filter (fun op => op ≠ .max)

/-- The answers to the operations other than `Max`. -/
def dropMaxAnswers : List Op → List (Option Nat) → List (Option Nat)
  | op :: ops, r :: rs => if op = .max then dropMaxAnswers ops rs else r :: dropMaxAnswers ops rs
  | _, _ => []

/-- Without ties the specification determines all answers. -/
theorem run_det (hanti : ∀ x y, lt x y = false → lt y x = false → x = y) : ∀ (ops : List Op) {b1 b2 : List Nat}
    {r1 r2 : List (Option Nat)} {c1 c2 : List Nat}, b1.Perm b2 → Spec.Run lt b1 ops r1 c1 →
    Spec.Run lt b2 (dropMax ops) r2 c2 → r2 = dropMaxAnswers ops r1 := by
  intro ops
  induction ops with
  | nil =>
    intro b1 b2 r1 r2 c1 c2 _ h1 h2
    cases h1; cases h2; rfl
  | cons op ops ih =>
    intro b1 b2 r1 r2 c1 c2 hp h1 h2
    cases h1 with
    | cons _ _ r b1' _ rs _ s1 h1' =>
    by_cases hop : op = .max
    · subst hop
      simp only [dropMaxAnswers, if_pos]
      have hb : b1' = b1 := by cases s1 <;> rfl
      subst hb
      have : dropMax (.max :: ops) = dropMax ops := by simp [dropMax]
      rw [this] at h2
      exact ih hp h1' h2
    · have : dropMax (op :: ops) = op :: dropMax ops := by simp [dropMax, hop]
      rw [this] at h2
      simp only [dropMaxAnswers, if_neg hop]
      cases h2 with
      | cons _ _ r' b2' _ rs' _ s2 h2' =>
      have key : r' = r ∧ b1'.Perm b2' := by
        cases s1 with
        | push _ x => cases s2 with
          | push => exact ⟨rfl, hp.cons _⟩
          | empty _ h => exact absurd rfl (h x)
        | empty _ h =>
          have hb := hp.symm.eq_nil
          subst hb
          cases s2 with
          | push _ x => exact absurd rfl (h x)
          | empty => exact ⟨rfl, .nil⟩
          | min _ _ hx => cases hx.1
          | max _ _ hx => cases hx.1
          | popMin _ _ hx => cases hx.1
          | popMax _ _ hx => cases hx.1
        | min _ x hx => cases s2 with
          | empty => exact absurd (hp.mem_iff.mp hx.1) (by simp)
          | min _ y hy =>
            refine ⟨?_, hp⟩
            rw [hanti y x (hx.2 y (hp.mem_iff.mpr hy.1)) (hy.2 x (hp.mem_iff.mp hx.1))]
        | max _ x hx => exact absurd rfl hop
        | popMin _ x hx => cases s2 with
          | empty => exact absurd (hp.mem_iff.mp hx.1) (by simp)
          | popMin _ y hy =>
            rw [hanti y x (hx.2 y (hp.mem_iff.mpr hy.1)) (hy.2 x (hp.mem_iff.mp hx.1))]
            exact ⟨rfl, hp.erase x⟩
        | popMax _ x hx => cases s2 with
          | empty => exact absurd (hp.mem_iff.mp hx.1) (by simp)
          | popMax _ y hy =>
            rw [hanti y x (hy.2 x (hp.mem_iff.mp hx.1)) (hx.2 y (hp.mem_iff.mpr hy.1))]
            exact ⟨rfl, hp.erase x⟩
      rw [key.1, ih key.2 h1' h2']

/-- C37, the part that holds, as a comparison of two executions: when no two items tie, leaving out all
calls of `Max` changes none of the other answers, provided no `Push` follows a `Max` without a pop between. -/
theorem C37_observation_partial (S : SWO lt) (hanti : ∀ x y, lt x y = false → lt y x = false → x = y)
    (items : List Nat) (ops : List Op) (hops : NoPushAfterMax false ops) :
    (execAll lt (new lt items) (dropMax ops)).2 = dropMaxAnswers ops (execAll lt (new lt items) ops).2 := by
  obtain ⟨_, r1, _⟩ := C37_answers_partial S items ops hops
  obtain ⟨_, r2, _⟩ := C36_extremes S items (dropMax ops) (by simp [dropMax])
  exact run_det hanti ops (List.Perm.refl _) r1 r2

-- Concrete cases: a mixed history with ties, and one that meets the hypothesis of the partial theorems.
example : (execAll natLt (new natLt [5, 3, 3, 8, 1]) [.popMin, .push 4, .popMax, .popMin, .push 0, .min, .popMax]).2 =
    [some 1, none, some 8, some 3, none, some 0, some 5] := by decide
example : NoPushAfterMax false [.max, .popMin, .push 4, .max, .min, .popMax] := by simp [NoPushAfterMax]
example : (execAll natLt (new natLt [5, 3, 7, 8, 1]) [.max, .popMin, .push 4, .max, .min, .popMax]).2 =
    [some 8, some 1, none, some 8, some 3, some 8] := by decide

/-! ### C38 -/

/-- Every item knows its slot. -/
def Tracked (h : Heap) : Prop := ∀ i, i < h.len → h.index (h.slot i) = i

/-- `h'` arises from `h` by moving items between slots below `n`, keeping track of them. -/
def Good (n : Nat) (h h' : Heap) : Prop :=
  h'.len = h.len ∧ h'.maxed = h.maxed ∧ PermOn (· < n) h.slot h'.slot ∧ (n ≤ h.len → Tracked h → Tracked h')

theorem Good.refl (n : Nat) (h : Heap) : Good n h h := ⟨rfl, rfl, PermOn.refl _ _, fun _ h => h⟩

theorem Good.trans {n : Nat} {a b c : Heap} (h1 : Good n a b) (h2 : Good n b c) : Good n a c :=
  ⟨h2.1.trans h1.1, h2.2.1.trans h1.2.1, h1.2.2.1.trans h2.2.2.1, fun hn ht => h2.2.2.2 (by rw [h1.1]; exact hn) (h1.2.2.2 hn ht)⟩

theorem Tracked.inj {h : Heap} (ht : Tracked h) {i j : Nat} (hi : i < h.len) (hj : j < h.len)
    (he : h.slot i = h.slot j) : i = j := by
  rw [← ht i hi, ← ht j hj, he]

theorem good_swap {n : Nat} (h : Heap) {i j : Nat} (hi : i < n) (hj : j < n) : Good n h (swap h i j) := by
  refine ⟨rfl, rfl, permOn_swap _ h hi hj, ?_⟩
  intro hn ht x hx
  have hx' : x < h.len := hx
  by_cases hxj : x = j
  · rw [hxj, swap_j]
    have : (swap h i j).slot j = h.slot i := swap_j h i j
    simp only [swap] at *
    rw [if_pos]
    exact this.symm
  · by_cases hxi : x = i
    · rw [hxi, swap_i]
      have h1 : (swap h i j).slot i = h.slot j := swap_i h i j
      have h2 : (swap h i j).slot j = h.slot i := swap_j h i j
      have h3 : h.slot j ≠ h.slot i := fun hc => hxj (hxi.trans (ht.inj (by omega) (by omega) hc).symm)
      simp only [swap] at *
      rw [if_neg (by rw [h2]; exact h3), if_pos h1.symm]
    · rw [swap_o h hxi hxj]
      have h1 : (swap h i j).slot i = h.slot j := swap_i h i j
      have h2 : (swap h i j).slot j = h.slot i := swap_j h i j
      have h3 : h.slot x ≠ h.slot i := fun hc => hxi (ht.inj (by omega) (by omega) hc)
      have h4 : h.slot x ≠ h.slot j := fun hc => hxj (ht.inj (by omega) (by omega) hc)
      simp only [swap] at *
      rw [if_neg (by rw [h2]; exact h3), if_neg (by rw [h1]; exact h4)]
      exact ht x hx'

theorem fold_pick_mem (h : Heap) (n : Nat) (b : Bool) : ∀ (cs : List Nat) (m0 : Nat),
    cs.foldl (pick lt h n b) m0 = m0 ∨ cs.foldl (pick lt h n b) m0 < n := by
  intro cs
  induction cs with
  | nil => intro m0; exact .inl rfl
  | cons c cs ih =>
    intro m0
    rw [List.foldl_cons]
    rcases ih (pick lt h n b m0 c) with h1 | h1
    · rw [h1]
      unfold pick
      split
      · rename_i hc; exact .inr hc.1
      · exact .inl rfl
    · exact .inr h1

theorem good_downLoop (n : Nat) (b : Bool) : ∀ (f : Nat) (h : Heap) (i : Nat), i < n →
    Good n h (downLoop lt n b f h i).1 := by
  intro f
  induction f with
  | zero => intro h i _; exact Good.refl _ _
  | succ f ih =>
    intro h i hi
    unfold downLoop
    split
    · exact Good.refl _ _
    · simp only
      have hm : select lt h n b i < n := by
        rcases fold_pick_mem (lt := lt) h n b [lchild i, rchild i, lchild (lchild i), lchild (lchild i) + 1,
          lchild (lchild i) + 2, lchild (lchild i) + 3] i with h1 | h1
        · unfold select; rw [h1]; exact hi
        · exact h1
      generalize select lt h n b i = m at hm
      have hp : parent m < n := by unfold parent; omega
      split
      · exact Good.refl _ _
      · split
        · exact good_swap h hi hm
        · refine (good_swap h hi hm).trans ?_
          split
          · exact (good_swap _ hm hp).trans (ih _ _ hm)
          · exact ih _ _ hm

theorem good_down {n : Nat} (h : Heap) {i : Nat} (hi : i < n) : Good n h (down lt h i n).1 := good_downLoop _ _ _ _ _ hi

theorem good_upLoop (n : Nat) (b : Bool) : ∀ (f : Nat) (h : Heap) (i : Nat), i < n → Good n h (upLoop lt b f h i) := by
  intro f
  induction f with
  | zero => intro h i _; exact Good.refl _ _
  | succ f ih =>
    intro h i hi
    unfold upLoop
    have hg : grandparent i < n := by unfold grandparent parent; omega
    split
    · simp only
      split
      · exact Good.refl _ _
      · exact (good_swap h hi hg).trans (ih _ _ hg)
    · exact Good.refl _ _

theorem good_up {n : Nat} (h : Heap) {i : Nat} (hi : i < n) : Good n h (up lt h i) := by
  unfold up
  have hp : parent i < n := by unfold parent; omega
  simp only
  split
  · exact (good_swap h hi hp).trans (good_upLoop _ _ _ _ _ hp)
  · exact good_upLoop _ _ _ _ _ hi

theorem good_setMax (h : Heap) (hl : 0 < h.len) : Good h.len h (setMax lt h) := by
  have hm : maxSlot lt h < h.len := by
    unfold maxSlot
    simp only
    split
    · split <;> omega
    · split <;> omega
  unfold setMax
  refine (good_swap (n := h.len) h hm (j := h.len - 1) (by omega)).trans ?_
  by_cases hlast : maxSlot lt h < h.len - 1
  · have := good_down (lt := lt) (n := h.len - 1) (swap h (maxSlot lt h) (h.len - 1)) hlast
    refine ⟨this.1, this.2.1, this.2.2.1.mono (fun x hx => by omega), fun _ ht => this.2.2.2 (by rw [swap_len]; omega) ht⟩
  · have : (down lt (swap h (maxSlot lt h) (h.len - 1)) (maxSlot lt h) (h.len - 1)).1 =
        swap h (maxSlot lt h) (h.len - 1) := by
      unfold down
      have hge : lchild (maxSlot lt h) ≥ h.len - 1 := by unfold lchild; omega
      generalize h.len - 1 = k at hge
      cases k with
      | zero => rfl
      | succ k =>
        simp only [downLoop]
        rw [if_pos hge]
    rw [this]
    exact Good.refl _ _

theorem good_initLoop : ∀ (k : Nat) (h : Heap), k ≤ h.len → Good h.len h (initLoop lt k h) := by
  intro k
  induction k with
  | zero => intro h _; exact Good.refl _ _
  | succ k ih =>
    intro h hk
    unfold initLoop
    have h1 := good_down (lt := lt) (n := h.len) h (i := k) (by omega)
    have h2 := ih (down lt h k h.len).1 (by rw [h1.1]; omega)
    rw [h1.1] at h2
    exact h1.trans h2

theorem tracked_shrink {h : Heap} (ht : Tracked h) {n : Nat} (hn : n ≤ h.len) : Tracked { h with len := n } :=
  fun i hi => ht i (Nat.lt_of_lt_of_le hi hn)

/-- Heaps built by `NewMinMaxHeap` and then used with any calls but `Push`. The priorities may be different
at each call (users change them before `Update`). `NewMinMaxHeap` makes a new item for each argument. -/
inductive Built : Heap → Prop
  | new (lt : Nat → Nat → Bool) (items : List Nat) (h : items.Nodup) : Built (new lt items)
  | exec (lt : Nat → Nat → Bool) (h op) (hb : Built h) (hop : ∀ x, op ≠ .push x) : Built (exec lt h op).1
  | update (lt : Nat → Nat → Bool) (h item h') (hb : Built h) (he : update lt h item = some h') : Built h'
  | remove (lt : Nat → Nat → Bool) (h item h' x) (hb : Built h) (he : remove lt h item = some (h', x)) : Built h'

theorem good_fix (h : Heap) {i : Nat} (hi : i < h.len) : Good h.len h (fix lt h i) := by
  unfold fix
  have h1 := good_down (lt := lt) (n := h.len) h hi
  simp only
  split
  · exact h1
  · exact h1.trans (good_up _ hi)

theorem removeAt_last {h : Heap} {i : Nat} (hi : i < h.len) :
    ∃ g, Good h.len h g ∧ g.slot (h.len - 1) = h.slot i ∧ removeAt lt h i = pop g := by
  unfold removeAt
  simp only
  by_cases hne : h.len - 1 ≠ i
  · rw [if_pos hne]
    have h1 := good_swap (n := h.len) h hi (j := h.len - 1) (by omega)
    have h2 := good_down (lt := lt) (n := h.len - 1) (swap h i (h.len - 1)) (i := i) (by omega)
    have h3 : ∀ g, Good (h.len - 1) (swap h i (h.len - 1)) g → Good h.len h g ∧ g.slot (h.len - 1) = h.slot i := by
      intro g hg
      refine ⟨h1.trans ⟨hg.1, hg.2.1, hg.2.2.1.mono (fun x hx => by omega), fun _ ht => hg.2.2.2 (by rw [swap_len]; omega) ht⟩, ?_⟩
      rw [hg.2.2.1.out (by omega), swap_j]
    refine ⟨_, (h3 _ ?_).1, (h3 _ ?_).2, rfl⟩
    all_goals
      split
      · exact h2
      · exact h2.trans (good_up _ (by omega))
  · rw [if_neg hne]
    have : h.len - 1 = i := by omega
    exact ⟨h, Good.refl _ _, by rw [this], rfl⟩

theorem built_tracked {h : Heap} (hb : Built h) : Tracked h := by
  induction hb with
  | new lt items hn =>
    have h1 := good_initLoop (lt := lt) (items.length / 2)
      { slot := fun i => items.getD i 0, len := items.length, index := fun p => if p ∈ items then items.idxOf p else 0, maxed := false }
      (by simp only; omega)
    refine h1.2.2.2 (Nat.le_refl _) ?_
    intro i hi
    have hi' : i < items.length := hi
    simp only [List.getD_eq_getElem?_getD, List.getElem?_eq_getElem hi', Option.getD_some]
    rw [if_pos (List.getElem_mem hi')]
    exact hn.idxOf_getElem i hi'
  | exec lt h op hb hop ih =>
    cases op with
    | push x => exact absurd rfl (hop x)
    | min => exact ih
    | max =>
      simp only [Heap.exec, Heap.max]
      split
      · exact ih
      · simp only
        split
        · exact ih
        · exact (good_setMax h (by omega)).2.2.2 (Nat.le_refl _) ih
    | popMin =>
      simp only [Heap.exec, Heap.popMin]
      split
      · exact ih
      · rename_i h0
        simp only [pop]
        have h1 := good_swap (n := h.len) { h with maxed := false } (i := 0) (j := h.len - 1) (by omega) (by omega)
        have h2 := h1.2.2.2 (Nat.le_refl _) ih
        have h3 : Tracked (down lt (swap { h with maxed := false } 0 (h.len - 1)) 0 (h.len - 1)).1 := by
          by_cases hl : 0 < h.len - 1
          · exact (good_down (n := h.len - 1) _ hl).2.2.2 (by rw [swap_len]; simp only; omega) h2
          · have : h.len - 1 = 0 := by omega
            rw [this] at h2 ⊢
            exact h2
        exact tracked_shrink h3 (by omega)
    | popMax =>
      simp only [Heap.exec, Heap.popMax]
      split
      · exact ih
      · simp only [pop]
        split
        · exact tracked_shrink (h := { h with maxed := false }) ih (by simp only; omega)
        · have h1 := good_setMax (lt := lt) h (by omega)
          exact tracked_shrink (h := { setMax lt h with maxed := false }) (h1.2.2.2 (Nat.le_refl _) ih) (by simp only; omega)
  | update lt h item h' hb he ih =>
    unfold update at he
    split at he
    · rename_i hi
      cases he
      exact (good_fix (lt := lt) { h with maxed := false } hi).2.2.2 (Nat.le_refl _) ih
    · cases he
  | remove lt h item h' x hb he ih =>
    unfold remove at he
    split at he
    · rename_i hi
      obtain ⟨g, g1, g2, g3⟩ := removeAt_last (lt := lt) (h := { h with maxed := false }) hi
      rw [g3] at he
      cases he
      exact tracked_shrink (g1.2.2.2 (Nat.le_refl _) ih) (by omega)
    · cases he

theorem tracked_contents {h : Heap} (ht : Tracked h) {item : Nat} (hm : item ∈ contents h) :
    h.index item < h.len ∧ h.slot (h.index item) = item := by
  obtain ⟨d, hd, rfl⟩ := mem_contents.mp hm
  rw [ht d hd]
  exact ⟨hd, rfl⟩

/-- C38 is violated, 1: `Push` does not record the position of the pushed item, so `Remove` of an item that
was just pushed removes another one. (`streams/stores/min_max_heap.go:70-73,130-132,252-255`: no assignment to
`index`, which is 0 in a new item and cannot be set by users.) -/
theorem C38_violated_push_remove :
    (remove natLt (push natLt (new natLt [1]) 2) 2).map (fun r => (r.2, contents r.1)) = some (1, [2]) := by decide

/-- C38 is violated, 2: `Update` of an item whose position is right leaves a heap that is not ordered. Item 6
of the heap 6, 2, 4, 8 gets the highest priority; `Min` still returns another item. -/
theorem C38_violated_update :
    let lt' := fun x y => natLt (if x = 6 then 0 else x) (if y = 6 then 0 else y)
    (update lt' (new natLt [6, 2, 4, 1]) 6).map (fun h => (Heap.min h, lt' 6 1)) = some (some 1, true) := by decide

/-- C38 is violated, 3: `Remove` of an item whose position is right can leave a heap that is not ordered:
after removing 4, `PopMax` returns 11 and then 9, although 10 is still in the heap. -/
theorem C38_violated_remove :
    (remove natLt (new natLt [9, 0, 11, 4, 1, 3, 8, 7, 6, 5, 2, 10]) 4).map
      (fun r => ((execAll natLt r.1 [.popMax, .popMax]).2, decide (10 ∈ contents (execAll natLt r.1 [.popMax, .popMax]).1))) =
    some ([some 11, some 9], true) := by decide

/-- C38, the part about contents: in a heap never used with `Push`, `Remove` removes exactly the given item
and `Update` removes nothing; neither panics. Missing: heaps used with `Push`, and the order of the result,
both of which the code gets wrong. -/
theorem C38_contents_partial {h : Heap} (hb : Built h) {item : Nat} (hm : item ∈ contents h) :
    (∃ h', remove lt h item = some (h', item) ∧ (contents h').Perm ((contents h).erase item)) ∧
    (∃ h', update lt h item = some h' ∧ (contents h').Perm (contents h)) := by
  have ht := built_tracked hb
  obtain ⟨hi, hs⟩ := tracked_contents ht hm
  constructor
  · obtain ⟨g, g1, g2, g3⟩ := removeAt_last (lt := lt) (h := { h with maxed := false }) hi
    have hl : g.len = h.len := g1.1
    have hg : g.slot (h.len - 1) = item := g2.trans hs
    refine ⟨{ g with len := g.len - 1 }, ?_, ?_⟩
    · unfold remove
      rw [if_pos hi, g3]
      simp only [pop, hl, hg]
    · have h1 : (contents g).Perm (contents h) := contents_perm hl g1.2.2.1
      have h2 := contents_pop (h := g) (by omega)
      rw [hl] at h2 ⊢
      rw [hg] at h2
      have h3 := (h2.symm.trans h1).erase item
      rwa [List.erase_cons_head] at h3
  · refine ⟨_, by unfold update; rw [if_pos hi], ?_⟩
    have := good_fix (lt := lt) { h with maxed := false } hi
    exact contents_perm this.1 this.2.2.1

/-- What `fix` and `remove` do after an item has been put into slot `i`. -/
theorem repair_spec (S : SWO lt) {h : Heap} {i n : Nat} (hi : i < n)
    (hok : ∀ j d, Sub j d → d < n → j ≠ i → d ≠ i → PairOK lt h.slot j d)
    (hcase : (∀ j, Sub j i → j ≠ i → PairOK lt h.slot j i) ∨
      (∀ d, Sub i d → d ≠ i → d < n → ¬ ord lt (isMinLevel i) (h.slot d) (h.slot i))) :
    ∀ j, OK lt (if (down lt h i n).2 then (down lt h i n).1 else up lt (down lt h i n).1 i).slot n j := by
  have hpre : ∀ j, Sub i j → j ≠ i → OK lt h.slot n j := by
    intro j hj hji d hd hdn
    have h1 := hj.le
    have h2 := hd.le
    exact hok j d hd hdn hji (by omega)
  rcases hcase with hA | hB
  · obtain ⟨_, p2, p3⟩ := down_spec S hpre
    have hall : ∀ j, OK lt (down lt h i n).1.slot n j := by
      intro j
      by_cases hj : Sub i j
      · exact p2 j hj
      · refine p3 j hj ?_
        intro d hd hdn
        have hji : j ≠ i := by rintro rfl; exact hj .self
        by_cases hdi : d = i
        · subst hdi; exact hA j hd hji
        · exact hok j d hd hdn hji hdi
    split
    · exact hall
    · exact (up_spec S hi (fun j d hd hdn _ => hall j d hd hdn)).2
  · have hdown : down lt h i n = (h, false) := by
      have hsel : select lt h n (isMinLevel i) i = i := by
        obtain ⟨h1, h2, _⟩ := fold_pick S h n (isMinLevel i)
          [lchild i, rchild i, lchild (lchild i), lchild (lchild i) + 1, lchild (lchild i) + 2, lchild (lchild i) + 3] i
        rcases select_cases S h n i with hc | ⟨hc1, hc2⟩
        · exact hc
        · exfalso
          generalize hsm : select lt h n (isMinLevel i) i = m at hc1 hc2
          unfold select at hsm
          rw [hsm] at h2
          have hsub : Sub i m := by
            rcases hc2 with (rfl | rfl) | hc2
            · exact Sub.lchild i
            · exact Sub.rchild i
            · have : m = 2 * (2 * i + 1) + 1 ∨ m = 2 * (2 * i + 1) + 2 ∨ m = 2 * (2 * i + 2) + 1 ∨
                m = 2 * (2 * i + 2) + 2 := by omega
              rcases this with rfl | rfl | rfl | rfl
              · exact (Sub.lchild i).trans (Sub.lchild _)
              · exact (Sub.lchild i).trans (Sub.rchild _)
              · exact (Sub.rchild i).trans (Sub.lchild _)
              · exact (Sub.rchild i).trans (Sub.rchild _)
          exact hB m hsub (by omega) hc1 h2
      unfold down
      obtain ⟨k, rfl⟩ : ∃ k, n = k + 1 := ⟨n - 1, by omega⟩
      simp only [downLoop, hsel, if_pos]
      split
      · simp
      · simp
    rw [hdown]
    simp only
    refine (up_spec S hi ?_).2
    intro j d hd hdn hnb
    by_cases hji : j = i
    · subst hji
      by_cases hdj : d = j
      · subst hdj; exact ord_refl S _ _
      · have := hB d hd hdj hdn
        unfold PairOK
        unfold ord at *
        cases hb : isMinLevel j
        · rw [hb] at this
          simp at *
          exact S.asymm _ _ this
        · rw [hb] at this
          simp at *
          exact S.asymm _ _ this
    · exact hok j d hd hdn hji (by tauto)

/-- C38, the part about the order: `Update` gives a heap that is ordered for the new priorities if the
item's new priority is compatible with the items above it in the heap, or is more extreme than those of
all items below it (always so for an item without items below). `hsame` says that only the priority of
this item has changed. Missing: the other updates, for which the claim is false (`C38_violated_update`). -/
theorem C38_update_order_partial {lt' : Nat → Nat → Bool} (S' : SWO lt') {h : Heap} (hb : Built h)
    (hord : ∀ j, OK lt h.slot h.len j) {item : Nat} (hm : item ∈ contents h)
    (hsame : ∀ x y, x ≠ item → y ≠ item → lt' x y = lt x y)
    (hcase : (∀ j, Sub j (h.index item) → j ≠ h.index item → PairOK lt' h.slot j (h.index item)) ∨
      (∀ d, Sub (h.index item) d → d ≠ h.index item → d < h.len →
        ¬ ord lt' (isMinLevel (h.index item)) (h.slot d) item)) :
    ∃ h', update lt' h item = some h' ∧ (contents h').Perm (contents h) ∧ Inv lt' h' := by
  have ht := built_tracked hb
  obtain ⟨hi, hs⟩ := tracked_contents ht hm
  obtain ⟨_, h', e1, hp⟩ := C38_contents_partial (lt := lt') hb hm
  refine ⟨h', e1, hp, ?_⟩
  unfold update at e1
  rw [if_pos hi] at e1
  cases e1
  have hne : ∀ d, d < h.len → d ≠ h.index item → h.slot d ≠ item := by
    intro d hd hdi hc
    apply hdi
    rw [← hc, ht d hd]
  have hgood := good_fix (lt := lt') { h with maxed := false } hi
  have hrep := repair_spec S' (h := { h with maxed := false }) hi (fun j d hd hdn hji hdi => by
    have hjn : j < h.len := Nat.lt_of_le_of_lt hd.le hdn
    have h1 := hord j d hd hdn
    have h2 := hne j hjn hji
    have h3 := hne d hdn hdi
    unfold PairOK
    unfold ord at *
    simp only
    rw [hsame _ _ h3 h2, hsame _ _ h2 h3]
    exact h1) (by rw [show ({ h with maxed := false } : Heap).slot (h.index item) = item from hs]; exact hcase)
  constructor
  · intro _
    rw [hgood.1]
    exact hrep
  · intro hc
    rw [hgood.2.1] at hc
    cases hc

/-- C38: `Update` of the item returned by `Min` always gives an ordered heap. -/
theorem C38_update_min_partial {lt' : Nat → Nat → Bool} (S' : SWO lt') {h : Heap} (hb : Built h)
    (hord : ∀ j, OK lt h.slot h.len j) {item : Nat} (hmin : Heap.min h = some item)
    (hsame : ∀ x y, x ≠ item → y ≠ item → lt' x y = lt x y) :
    ∃ h', update lt' h item = some h' ∧ (contents h').Perm (contents h) ∧ Inv lt' h' := by
  unfold Heap.min at hmin
  split at hmin
  · cases hmin
  · cases hmin
    have hidx : h.index (h.slot 0) = 0 := built_tracked hb 0 (by omega)
    refine C38_update_order_partial S' hb hord (mem_contents.mpr ⟨0, by omega, rfl⟩) hsame (.inl ?_)
    rw [hidx]
    intro j hj hj0
    have := hj.le
    omega

/-- C38, the order after `Remove`: the heap is ordered if the item that takes the freed place (the last
one) is compatible with the items above that place, or more extreme than all below it, or if the removed item
is the last one. Missing: the other positions (`C38_violated_remove`). -/
theorem C38_remove_order_partial (S : SWO lt) {h : Heap} (hb : Built h) (hord : ∀ j, OK lt h.slot h.len j)
    {item : Nat} (hm : item ∈ contents h)
    (hcase : h.index item = h.len - 1 ∨
      (∀ j, Sub j (h.index item) → j ≠ h.index item → PairOK lt h.slot j (h.len - 1)) ∨
      (∀ d, Sub (h.index item) d → d ≠ h.index item → d < h.len - 1 →
        ¬ ord lt (isMinLevel (h.index item)) (h.slot d) (h.slot (h.len - 1)))) :
    ∃ h', remove lt h item = some (h', item) ∧ (contents h').Perm ((contents h).erase item) ∧ Inv lt h' := by
  have ht := built_tracked hb
  obtain ⟨hi, hs⟩ := tracked_contents ht hm
  obtain ⟨⟨h', e1, hp⟩, _⟩ := C38_contents_partial (lt := lt) hb hm
  refine ⟨h', e1, hp, ?_⟩
  unfold remove at e1
  rw [if_pos hi] at e1
  have e2 : (removeAt lt { h with maxed := false } (h.index item)).1 = h' := by
    have := Option.some.inj e1
    rw [this]
  have hor : h.index item = h.len - 1 ∨ h.index item < h.len - 1 := by omega
  rcases hor with hlast | hlt
  · subst e2
    unfold removeAt
    simp only
    rw [if_neg (by omega)]
    constructor
    · intro _ j; exact ok_mono (hord j) (by simp only [pop]; omega)
    · intro hc; cases hc
  · have hc := hcase.resolve_left (by omega)
    subst e2
    unfold removeAt
    simp only
    rw [if_pos (by omega)]
    set i := h.index item with hidx
    set n := h.len - 1 with hn
    set g := swap { h with maxed := false } i n with hg
    have go : ∀ x, x ≠ i → x ≠ n → g.slot x = h.slot x := fun x h1 h2 => swap_o _ h1 h2
    have gi : g.slot i = h.slot n := swap_i _ _ _
    have hrep := repair_spec S (h := g) (i := i) (n := n) hlt (fun j d hd hdn hji hdi => by
      have hjd := hd.le
      unfold PairOK
      rw [go j hji (by omega), go d hdi (by omega)]
      exact hord j d hd (by omega)) (by
        rcases hc with hA | hB
        · left
          intro j hj hji
          have hjd := hj.le
          unfold PairOK
          rw [go j hji (by omega), gi]
          exact hA j hj hji
        · right
          intro d hd hdi hdn
          rw [go d hdi (by omega), gi]
          exact hB d hd hdi hdn)
    have hgood : Good n g (if (down lt g i n).2 then (down lt g i n).1 else up lt (down lt g i n).1 i) := by
      have h2 := good_down (lt := lt) (n := n) g (i := i) hlt
      split
      · exact h2
      · exact h2.trans (good_up _ hlt)
    constructor
    · intro _
      simp only [pop]
      rw [hgood.1]
      exact hrep
    · intro hc
      simp only [pop] at hc
      rw [hgood.2.1] at hc
      cases hc

/-- C38: removing the item returned by `Min` always gives an ordered heap without it. -/
theorem C38_remove_min_partial (S : SWO lt) {h : Heap} (hb : Built h) (hord : ∀ j, OK lt h.slot h.len j)
    {item : Nat} (hmin : Heap.min h = some item) :
    ∃ h', remove lt h item = some (h', item) ∧ (contents h').Perm ((contents h).erase item) ∧ Inv lt h' := by
  unfold Heap.min at hmin
  split at hmin
  · cases hmin
  · cases hmin
    have hidx : h.index (h.slot 0) = 0 := built_tracked hb 0 (by omega)
    refine C38_remove_order_partial S hb hord (mem_contents.mpr ⟨0, by omega, rfl⟩) (.inr (.inl ?_))
    rw [hidx]
    intro j hj hj0
    have := hj.le
    omega

-- A heap that meets the hypotheses: five items; its minimum is 1.
example : Built (new natLt [5, 3, 7, 8, 1]) := .new _ _ (by decide)
example : Heap.min (new natLt [5, 3, 7, 8, 1]) = some 1 := by decide
example : ∀ j, OK natLt (new natLt [5, 3, 7, 8, 1]).slot (new natLt [5, 3, 7, 8, 1]).len j :=
  (new_spec natLt_swo _).1.plain (new_spec natLt_swo _).2.2
-- Only the priority of item 1 changes, from 1 to 6.
example : ∀ x y, x ≠ 1 → y ≠ 1 → natLt (if x = 1 then 6 else x) (if y = 1 then 6 else y) = natLt x y := by
  intro x y h1 h2; simp [h1, h2]
example : (remove natLt (new natLt [5, 3, 7, 8, 1]) 7).map (fun r => (r.2, contents r.1)) = some (7, [1, 8, 5, 3]) := by
  decide

end Verif.Heap
