import Verif.Heap.Model
import Mathlib.Logic.Equiv.Basic
import Mathlib.Tactic.Common
/-
The min-max heap: order invariant and permutation.
-/
set_option linter.unusedSimpArgs false
namespace Verif.Heap

/-- A strict weak order: `HasPriorityOver` compares keys of a total preorder. -/
structure SWO (lt : Nat → Nat → Bool) : Prop where
  asymm : ∀ x y, lt x y = true → lt y x = false
  negtrans : ∀ x y z, lt x y = false → lt y z = false → lt x z = false

/-- `x` may be above `y` when `x` is on a level of kind `b` (`true`: min level). -/
def ord (lt : Nat → Nat → Bool) (b : Bool) (x y : Nat) : Prop := if b then lt y x = false else lt x y = false

variable {lt : Nat → Nat → Bool}

theorem SWO.irrefl (S : SWO lt) (x : Nat) : lt x x = false := by
  cases h : lt x x with
  | false => rfl
  | true => have := S.asymm x x h; rw [h] at this; exact this

theorem ord_refl (S : SWO lt) (b : Bool) (x : Nat) : ord lt b x x := by
  unfold ord; cases b <;> simp [S.irrefl]

theorem ord_trans (S : SWO lt) {b : Bool} {x y z : Nat} (h1 : ord lt b x y) (h2 : ord lt b y z) : ord lt b x z := by
  unfold ord at *
  cases b
  · simp at *; exact S.negtrans _ _ _ h1 h2
  · simp at *; exact S.negtrans _ _ _ h2 h1

theorem ord_of_true (S : SWO lt) {b : Bool} {x y : Nat} (h : (lt x y == b) = true) : ord lt b x y := by
  unfold ord
  cases b
  · simpa using h
  · simp at *; exact S.asymm _ _ h

theorem ord_of_false (S : SWO lt) {b : Bool} {x y : Nat} (h : ¬ (lt x y == b) = true) : ord lt b y x := by
  unfold ord
  cases b
  · simp at *; exact S.asymm _ _ h
  · simpa using h

theorem ord_not {b : Bool} {x y : Nat} : ord lt (!b) x y ↔ ord lt b y x := by
  unfold ord; cases b <;> simp

/-! ### Shape of the tree -/

/-- `d` is `j` or below `j`. -/
inductive Sub (j : Nat) : Nat → Prop
  | self : Sub j j
  | step {d : Nat} : 0 < d → Sub j ((d - 1) / 2) → Sub j d

theorem Sub.le {j d : Nat} (h : Sub j d) : j ≤ d := by
  induction h with
  | self => exact Nat.le_refl _
  | step _ _ ih => omega

theorem Sub.trans {i j d : Nat} (h1 : Sub i j) (h2 : Sub j d) : Sub i d := by
  induction h2 with
  | self => exact h1
  | step h _ ih => exact .step h ih

theorem Sub.antisymm {i j : Nat} (h1 : Sub i j) (h2 : Sub j i) : i = j := by
  have := h1.le; have := h2.le; omega

theorem Sub.cases' {j d : Nat} (h : Sub j d) : d = j ∨ (0 < d ∧ Sub j ((d - 1) / 2)) := by
  cases h with
  | self => exact .inl rfl
  | step h h' => exact .inr ⟨h, h'⟩

theorem Sub.zero (d : Nat) : Sub 0 d := by
  induction d using Nat.strongRecOn with
  | ind d ih =>
    by_cases h : d = 0
    · rw [h]; exact .self
    · exact .step (by omega) (ih _ (by omega))

/-- Two ancestors of one node are comparable. -/
theorem Sub.chain {p q d : Nat} (h1 : Sub p d) (h2 : Sub q d) : Sub p q ∨ Sub q p := by
  induction h1 with
  | self => exact .inr h2
  | @step d hd h1 ih =>
    rcases h2.cases' with rfl | ⟨_, h2⟩
    · exact .inl (.step hd h1)
    · exact ih h2

theorem Sub.lchild (i : Nat) : Sub i (2 * i + 1) := .step (by omega) (by
  have : (2 * i + 1 - 1) / 2 = i := by omega
  rw [this]; exact .self)

theorem Sub.rchild (i : Nat) : Sub i (2 * i + 2) := .step (by omega) (by
  have : (2 * i + 2 - 1) / 2 = i := by omega
  rw [this]; exact .self)

theorem Sub.down_cases {i d : Nat} (h : Sub i d) : d = i ∨ Sub (2 * i + 1) d ∨ Sub (2 * i + 2) d := by
  induction h with
  | self => exact .inl rfl
  | @step d hd h ih =>
    rcases ih with h' | h' | h'
    · right
      have : d = 2 * i + 1 ∨ d = 2 * i + 2 := by omega
      rcases this with rfl | rfl
      · exact .inl .self
      · exact .inr .self
    · exact .inr (.inl (.step hd h'))
    · exact .inr (.inr (.step hd h'))

theorem isMin_l (i : Nat) : isMinLevel (2 * i + 1) = !isMinLevel i := by
  unfold isMinLevel level
  have : 2 * i + 1 + 1 = 2 * (i + 1) := by omega
  rw [this, Nat.log2_two_mul (by omega)]
  rcases Nat.mod_two_eq_zero_or_one (Nat.log2 (i + 1)) with h | h
  · have : (Nat.log2 (i + 1) + 1) % 2 = 1 := by omega
    simp [h, this]
  · have : (Nat.log2 (i + 1) + 1) % 2 = 0 := by omega
    simp [h, this]

theorem log2_two_mul_add_one (k : Nat) (h : 0 < k) : Nat.log2 (2 * k + 1) = Nat.log2 k + 1 := by
  rw [Nat.log2_def]
  have : 2 ≤ 2 * k + 1 := by omega
  rw [if_pos this]
  congr 2
  omega

theorem isMin_r (i : Nat) : isMinLevel (2 * i + 2) = !isMinLevel i := by
  unfold isMinLevel level
  have : 2 * i + 2 + 1 = 2 * (i + 1) + 1 := by omega
  rw [this, log2_two_mul_add_one _ (by omega)]
  rcases Nat.mod_two_eq_zero_or_one (Nat.log2 (i + 1)) with h | h
  · have : (Nat.log2 (i + 1) + 1) % 2 = 1 := by omega
    simp [h, this]
  · have : (Nat.log2 (i + 1) + 1) % 2 = 0 := by omega
    simp [h, this]

theorem isMin_parent {d : Nat} (h : 0 < d) : isMinLevel ((d - 1) / 2) = !isMinLevel d := by
  have : d = 2 * ((d - 1) / 2) + 1 ∨ d = 2 * ((d - 1) / 2) + 2 := by omega
  rcases this with h' | h'
  · conv => rhs; rw [h', isMin_l]
    simp
  · conv => rhs; rw [h', isMin_r]
    simp

/-! ### Order -/

/-- Node `j` is right with respect to everything below it. -/
def OK (lt : Nat → Nat → Bool) (a : Nat → Nat) (n j : Nat) : Prop :=
  ∀ d, Sub j d → d < n → ord lt (isMinLevel j) (a j) (a d)

/-- `a'` arises from `a` by a permutation that moves only slots in the set `S`. -/
def PermOn (S : Nat → Prop) (a a' : Nat → Nat) : Prop :=
  ∃ σ : Equiv.Perm Nat, a' = a ∘ σ ∧ ∀ x, ¬ S x → σ x = x

theorem PermOn.refl (S : Nat → Prop) (a : Nat → Nat) : PermOn S a a := ⟨Equiv.refl _, rfl, fun _ _ => rfl⟩

theorem PermOn.trans {S : Nat → Prop} {a b c : Nat → Nat} (h1 : PermOn S a b) (h2 : PermOn S b c) : PermOn S a c := by
  obtain ⟨σ, rfl, hσ⟩ := h1
  obtain ⟨τ, rfl, hτ⟩ := h2
  refine ⟨τ.trans σ, by funext x; rfl, ?_⟩
  intro x hx
  show σ (τ x) = x
  rw [hτ x hx, hσ x hx]

theorem PermOn.mono {S S' : Nat → Prop} {a b : Nat → Nat} (h : PermOn S a b) (hs : ∀ x, S x → S' x) : PermOn S' a b := by
  obtain ⟨σ, h1, h2⟩ := h
  exact ⟨σ, h1, fun x hx => h2 x (fun hc => hx (hs x hc))⟩

theorem PermOn.mem {S : Nat → Prop} {σ : Equiv.Perm Nat} (h : ∀ x, ¬ S x → σ x = x) {x : Nat} (hx : S x) : S (σ x) := by
  by_contra hc
  have h1 := h _ hc
  have h2 := σ.injective h1
  rw [h2] at hc
  exact hc hx

theorem PermOn.out {S : Nat → Prop} {a b : Nat → Nat} (h : PermOn S a b) {x : Nat} (hx : ¬ S x) : b x = a x := by
  obtain ⟨σ, rfl, h2⟩ := h
  show a (σ x) = a x
  rw [h2 x hx]

theorem PermOn.inn {S : Nat → Prop} {a b : Nat → Nat} (h : PermOn S a b) {x : Nat} (hx : S x) : ∃ y, S y ∧ b x = a y := by
  obtain ⟨σ, rfl, h2⟩ := h
  exact ⟨σ x, PermOn.mem h2 hx, rfl⟩

theorem swap_slot (h : Heap) (i j : Nat) : (swap h i j).slot = h.slot ∘ Equiv.swap i j := by
  funext x
  simp only [swap, Function.comp, Equiv.swap_apply_def]
  split
  · rfl
  · split <;> rfl

theorem permOn_swap (S : Nat → Prop) (h : Heap) {i j : Nat} (hi : S i) (hj : S j) : PermOn S h.slot (swap h i j).slot := by
  refine ⟨Equiv.swap i j, swap_slot h i j, ?_⟩
  intro x hx
  exact Equiv.swap_apply_of_ne_of_ne (fun hc => hx (hc ▸ hi)) (fun hc => hx (hc ▸ hj))

theorem swap_len (h : Heap) (i j : Nat) : (swap h i j).len = h.len := rfl
theorem swap_maxed (h : Heap) (i j : Nat) : (swap h i j).maxed = h.maxed := rfl
theorem swap_i (h : Heap) (i j : Nat) : (swap h i j).slot i = h.slot j := by simp [swap]
theorem swap_j (h : Heap) (i j : Nat) : (swap h i j).slot j = h.slot i := by
  simp only [swap]; split
  · rename_i hh; rw [hh]
  · simp
theorem swap_o (h : Heap) {i j x : Nat} (hi : x ≠ i) (hj : x ≠ j) : (swap h i j).slot x = h.slot x := by
  simp [swap, hi, hj]

/-- Nodes that are not below `i` stay right if only slots below `i` are permuted. -/
theorem ok_outside {a a' : Nat → Nat} {n i j : Nat} (hp : PermOn (fun x => Sub i x ∧ x < n) a a')
    (hj : ¬ Sub i j) (h : OK lt a n j) : OK lt a' n j := by
  intro d hd hdn
  rw [hp.out (x := j) (fun hc => hj hc.1)]
  by_cases hs : Sub i d
  · obtain ⟨y, ⟨hy1, hy2⟩, hy⟩ := hp.inn (x := d) ⟨hs, hdn⟩
    rw [hy]
    have hji : Sub j i := by
      rcases Sub.chain hd hs with hc | hc
      · exact hc
      · exact absurd hc hj
    exact h y (hji.trans hy1) hy2
  · rw [hp.out (x := d) (fun hc => hs hc.1)]
    exact h d hd hdn

/-! ### `down` -/

theorem fold_pick (S : SWO lt) (h : Heap) (n : Nat) (b : Bool) : ∀ (cs : List Nat) (m0 : Nat),
    (cs.foldl (pick lt h n b) m0 = m0 ∨ (cs.foldl (pick lt h n b) m0 ∈ cs ∧ cs.foldl (pick lt h n b) m0 < n)) ∧
    ord lt b (h.slot (cs.foldl (pick lt h n b) m0)) (h.slot m0) ∧
    ∀ c ∈ cs, c < n → ord lt b (h.slot (cs.foldl (pick lt h n b) m0)) (h.slot c) := by
  intro cs
  induction cs with
  | nil => intro m0; exact ⟨.inl rfl, ord_refl S _ _, by simp⟩
  | cons c cs ih =>
    intro m0
    rw [List.foldl_cons]
    obtain ⟨h1, h2, h3⟩ := ih (pick lt h n b m0 c)
    have hp : (pick lt h n b m0 c = m0 ∨ (pick lt h n b m0 c = c ∧ c < n)) ∧
        ord lt b (h.slot (pick lt h n b m0 c)) (h.slot m0) ∧
        (c < n → ord lt b (h.slot (pick lt h n b m0 c)) (h.slot c)) := by
      unfold pick
      by_cases hc : c < n ∧ (less lt h c m0 == b) = true
      · rw [if_pos hc]
        exact ⟨.inr ⟨rfl, hc.1⟩, ord_of_true S hc.2, fun _ => ord_refl S _ _⟩
      · rw [if_neg hc]
        refine ⟨.inl rfl, ord_refl S _ _, fun hcn => ord_of_false S (fun ht => hc ⟨hcn, ht⟩)⟩
    obtain ⟨p1, p2, p3⟩ := hp
    refine ⟨?_, ord_trans S h2 p2, ?_⟩
    · rcases h1 with h1 | ⟨h1, h1'⟩
      · rw [h1]
        rcases p1 with p1 | ⟨p1, p1'⟩
        · exact .inl p1
        · right; rw [p1]; exact ⟨by simp, p1'⟩
      · exact .inr ⟨List.mem_cons_of_mem _ h1, h1'⟩
    · intro x hx hxn
      rcases List.mem_cons.mp hx with rfl | hx
      · exact ord_trans S h2 (p3 hxn)
      · exact h3 x hx hxn

/-- The selected slot is the best of the whole subtree. -/
theorem select_best (S : SWO lt) {h : Heap} {n i : Nat}
    (hok : ∀ j, Sub i j → j ≠ i → OK lt h.slot n j) (d : Nat) (hd : Sub i d) (hdn : d < n) :
    ord lt (isMinLevel i) (h.slot (select lt h n (isMinLevel i) i)) (h.slot d) := by
  obtain ⟨_, h2, h3⟩ := fold_pick S h n (isMinLevel i)
    [lchild i, rchild i, lchild (lchild i), lchild (lchild i) + 1, lchild (lchild i) + 2, lchild (lchild i) + 3] i
  have hgc : ∀ g, (g = 4 * i + 3 ∨ g = 4 * i + 4 ∨ g = 4 * i + 5 ∨ g = 4 * i + 6) → Sub g d → Sub i g →
      isMinLevel g = isMinLevel i → ord lt (isMinLevel i) (h.slot (select lt h n (isMinLevel i) i)) (h.slot d) := by
    intro g hg hgd hig hlev
    have hgn : g < n := Nat.lt_of_le_of_lt hgd.le hdn
    have e1 := h3 g (by simp only [lchild, rchild, List.mem_cons]; omega) hgn
    have e2 := hok g hig (by omega) d hgd hdn
    rw [hlev] at e2
    exact ord_trans S e1 e2
  rcases hd.down_cases with rfl | hc | hc
  · exact h2
  · rcases hc.down_cases with rfl | hc' | hc'
    · exact h3 _ (by simp [lchild, rchild]; omega) hdn
    · refine hgc (2 * (2 * i + 1) + 1) (by omega) hc' ((Sub.lchild i).trans (Sub.lchild _)) ?_
      rw [isMin_l, isMin_l]; simp
    · refine hgc (2 * (2 * i + 1) + 2) (by omega) hc' ((Sub.lchild i).trans (Sub.rchild _)) ?_
      rw [isMin_r, isMin_l]; simp
  · rcases hc.down_cases with rfl | hc' | hc'
    · exact h3 _ (by simp [lchild, rchild]; omega) hdn
    · refine hgc (2 * (2 * i + 2) + 1) (by omega) hc' ((Sub.rchild i).trans (Sub.lchild _)) ?_
      rw [isMin_l, isMin_r]; simp
    · refine hgc (2 * (2 * i + 2) + 2) (by omega) hc' ((Sub.rchild i).trans (Sub.rchild _)) ?_
      rw [isMin_r, isMin_r]; simp

theorem select_cases (S : SWO lt) (h : Heap) (n i : Nat) :
    select lt h n (isMinLevel i) i = i ∨
    (select lt h n (isMinLevel i) i < n ∧
      ((select lt h n (isMinLevel i) i = 2 * i + 1 ∨ select lt h n (isMinLevel i) i = 2 * i + 2) ∨
       (4 * i + 3 ≤ select lt h n (isMinLevel i) i ∧ select lt h n (isMinLevel i) i ≤ 4 * i + 6))) := by
  obtain ⟨h1, _, _⟩ := fold_pick S h n (isMinLevel i)
    [lchild i, rchild i, lchild (lchild i), lchild (lchild i) + 1, lchild (lchild i) + 2, lchild (lchild i) + 3] i
  rcases h1 with h1 | ⟨h1, h2⟩
  · exact .inl h1
  · right
    refine ⟨h2, ?_⟩
    simp only [lchild, rchild, List.mem_cons, List.not_mem_nil, or_false] at h1
    unfold select
    simp only [lchild, rchild] at *
    omega

theorem downLoop_spec (S : SWO lt) (n : Nat) : ∀ (f : Nat) (h : Heap) (i : Nat), n ≤ f + i →
    (∀ j, Sub i j → j ≠ i → OK lt h.slot n j) →
    PermOn (fun x => Sub i x ∧ x < n) h.slot (downLoop lt n (isMinLevel i) f h i).1.slot ∧
    (∀ j, Sub i j → OK lt (downLoop lt n (isMinLevel i) f h i).1.slot n j) := by
  have leaf : ∀ (h : Heap) (i : Nat), n ≤ 2 * i + 1 → (∀ j, Sub i j → j ≠ i → OK lt h.slot n j) →
      ∀ j, Sub i j → OK lt h.slot n j := by
    intro h i hn hok j hj
    by_cases hji : j = i
    · subst hji
      intro d hd hdn
      rcases hd.down_cases with rfl | hc | hc
      · exact ord_refl S _ _
      · have := hc.le; omega
      · have := hc.le; omega
    · exact hok j hj hji
  intro f
  induction f with
  | zero =>
    intro h i hf hok
    exact ⟨PermOn.refl _ _, leaf h i (by omega) hok⟩
  | succ f ih =>
    intro h i hf hok
    unfold downLoop
    by_cases hl : lchild i ≥ n
    · rw [if_pos hl]
      exact ⟨PermOn.refl _ _, leaf h i (by unfold lchild at hl; omega) hok⟩
    rw [if_neg hl]
    have hbest := select_best S hok
    have hcases := select_cases S h n i
    have hin : i < n := by unfold lchild at hl; omega
    simp only
    generalize select lt h n (isMinLevel i) i = m at hbest hcases
    by_cases hmi : m = i
    · rw [if_pos hmi]
      refine ⟨PermOn.refl _ _, ?_⟩
      intro j hj
      by_cases hji : j = i
      · rw [hji]
        intro d hd hdn
        have := hbest d hd hdn
        rwa [hmi] at this
      · exact hok j hj hji
    rw [if_neg hmi]
    obtain ⟨hmn, hm⟩ := hcases.resolve_left hmi
    have hperm1 : ∀ m, Sub i m → m < n → PermOn (fun x => Sub i x ∧ x < n) h.slot (swap h i m).slot :=
      fun m h1 h2 => permOn_swap _ h ⟨.self, hin⟩ ⟨h1, h2⟩
    by_cases hchild : m = lchild i ∨ m = rchild i
    · rw [if_pos hchild]
      have him : Sub i m := by
        rcases hchild with rfl | rfl
        · have := Sub.lchild i; unfold lchild; rwa [Nat.mul_comm] 
        · have := Sub.rchild i; unfold rchild; rwa [Nat.mul_comm]
      have hlev : isMinLevel m = !isMinLevel i := by
        rcases hchild with rfl | rfl
        · have := isMin_l i; unfold lchild; rwa [Nat.mul_comm]
        · have := isMin_r i; unfold rchild; rwa [Nat.mul_comm]
      have hpar : (m - 1) / 2 = i := by unfold lchild rchild at hchild; omega
      refine ⟨hperm1 m him hmn, ?_⟩
      intro j hj
      by_cases hji : j = i
      · subst hji
        intro d hd hdn
        rw [swap_i]
        obtain ⟨y, ⟨hy1, hy2⟩, hy⟩ := (hperm1 m him hmn).inn ⟨hd, hdn⟩
        rw [hy]
        exact hbest y hy1 hy2
      by_cases hjm : j = m
      · subst hjm
        intro d hd hdn
        rw [hlev, ord_not, swap_j]
        by_cases hdj : d = j
        · rw [hdj, swap_j]; exact ord_refl S _ _
        have hdi : d ≠ i := by
          intro hc; rw [hc] at hd; exact hji (hd.antisymm hj)
        rw [swap_o h hdi hdj]
        have e1 := hok j hj hji d hd hdn
        rw [hlev, ord_not] at e1
        exact ord_trans S e1 (hbest i .self hin)
      · intro d hd hdn
        have hnji : ¬ Sub j i := fun hc => hji (hc.antisymm hj)
        have hnjm : ¬ Sub j m := by
          intro hc
          rcases hc.cases' with hc | ⟨_, hc⟩
          · exact hjm hc.symm
          · rw [hpar] at hc; exact hnji hc
        rw [swap_o h (x := j) (fun hc => hnji (hc ▸ .self)) (fun hc => hnjm (hc ▸ .self)),
          swap_o h (x := d) (fun hc => hnji (by rw [← hc]; exact hd)) (fun hc => hnjm (by rw [← hc]; exact hd))]
        exact hok j hj hji d hd hdn
    · rw [if_neg hchild]
      have hm2 : 4 * i + 3 ≤ m ∧ m ≤ 4 * i + 6 := by
        rcases hm with hm | hm
        · unfold lchild rchild at hchild; omega
        · exact hm
      set p := parent m with hp
      have hpe : (m - 1) / 2 = p := rfl
      have hpi : (p - 1) / 2 = i := by unfold parent at hp; omega
      have hp0 : 0 < p := by unfold parent at hp; omega
      have hpm : p < m := by unfold parent at hp; omega
      have hip' : i < p := by unfold parent at hp; omega
      have hip : Sub i p := .step hp0 (by rw [hpi]; exact .self)
      have hpmS : Sub p m := .step (by omega) (by rw [hpe]; exact .self)
      have him : Sub i m := hip.trans hpmS
      have hlevp : isMinLevel p = !isMinLevel i := by
        have := isMin_parent hp0
        rw [hpi] at this
        rw [this]; simp
      have hlevm : isMinLevel m = isMinLevel i := by
        have := isMin_parent (d := m) (by omega)
        rw [hpe, hlevp] at this
        simpa using this.symm
      -- the heap before the next iteration
      set h1 := swap h i m with hh1
      set h2 := (if (less lt h1 p m == isMinLevel i) = true then swap h1 m p else h1) with hh2
      have hP1 : PermOn (fun x => Sub i x ∧ x < n) h.slot h1.slot := hperm1 m him hmn
      have hP2 : PermOn (fun x => Sub i x ∧ x < n) h.slot h2.slot := by
        rw [hh2]
        split
        · exact hP1.trans (permOn_swap _ h1 ⟨him, hmn⟩ ⟨hip, by omega⟩)
        · exact hP1
      have ho : ∀ x, x ≠ i → x ≠ m → x ≠ p → h2.slot x = h.slot x := by
        intro x hx1 hx2 hx3
        rw [hh2]
        split
        · rw [swap_o h1 hx2 hx3, hh1, swap_o h hx1 hx2]
        · rw [hh1, swap_o h hx1 hx2]
      have hi2 : h2.slot i = h.slot m := by
        rw [hh2]
        split
        · rw [swap_o h1 (by omega) (by omega), hh1, swap_i]
        · rw [hh1, swap_i]
      have h1p : h1.slot p = h.slot p := by rw [hh1, swap_o h (by omega) (by omega)]
      have hmp : ord lt (isMinLevel i) (h2.slot m) (h2.slot p) ∧ ord lt (isMinLevel i) (h.slot p) (h2.slot p) := by
        rw [hh2]
        split
        · rename_i hc
          have := ord_of_true S hc
          rw [swap_i, swap_j]
          exact ⟨this, by rw [← h1p]; exact this⟩
        · rename_i hc
          refine ⟨ord_of_false S hc, by rw [h1p]; exact ord_refl S _ _⟩
      have hpre : ∀ j, Sub m j → j ≠ m → OK lt h2.slot n j := by
        intro j hj hjm d hd hdn
        have h5 := hj.le
        have h6 := hd.le
        rw [ho j (by omega) hjm (by omega), ho d (by omega) (by omega) (by omega)]
        exact hok j (him.trans hj) (by omega) d hd hdn
      obtain ⟨r1, r2⟩ := ih h2 m (by omega) hpre
      rw [hlevm] at r1 r2
      refine ⟨hP2.trans (r1.mono (fun x hx => ⟨him.trans hx.1, hx.2⟩)), ?_⟩
      intro j hj
      by_cases hmj : Sub m j
      · exact r2 j hmj
      refine ok_outside r1 hmj ?_
      by_cases hji : j = i
      · subst hji
        intro d hd hdn
        rw [hi2]
        obtain ⟨y, ⟨hy1, hy2⟩, hy⟩ := hP2.inn ⟨hd, hdn⟩
        rw [hy]
        exact hbest y hy1 hy2
      by_cases hjp : j = p
      · rw [hjp]
        intro d hd hdn
        rw [hlevp, ord_not]
        by_cases hdp : d = p
        · rw [hdp]; exact ord_refl S _ _
        by_cases hdm : d = m
        · rw [hdm]; exact hmp.1
        have h6 := hd.le
        rw [ho d (by omega) hdm hdp]
        have e1 := hok p hip (by omega) d hd hdn
        rw [hlevp, ord_not] at e1
        exact ord_trans S e1 hmp.2
      · intro d hd hdn
        have hnji : ¬ Sub j i := fun hc => hji (hc.antisymm hj)
        have hnjp : ¬ Sub j p := by
          intro hc
          rcases hc.cases' with hc | ⟨_, hc⟩
          · exact hjp hc.symm
          · rw [hpi] at hc; exact hnji hc
        have hnjm : ¬ Sub j m := by
          intro hc
          rcases hc.cases' with hc | ⟨_, hc⟩
          · exact hmj (hc ▸ .self)
          · rw [hpe] at hc; exact hnjp hc
        rw [ho j (fun hc => hnji (hc ▸ .self)) (fun hc => hnjm (hc ▸ .self)) (fun hc => hnjp (hc ▸ .self)),
          ho d (fun hc => hnji (hc ▸ hd)) (fun hc => hnjm (hc ▸ hd)) (fun hc => hnjp (hc ▸ hd))]
        exact hok j hj hji d hd hdn

theorem down_spec (S : SWO lt) {h : Heap} {i n : Nat} (hok : ∀ j, Sub i j → j ≠ i → OK lt h.slot n j) :
    PermOn (fun x => Sub i x ∧ x < n) h.slot (down lt h i n).1.slot ∧
    (∀ j, Sub i j → OK lt (down lt h i n).1.slot n j) ∧
    (∀ j, ¬ Sub i j → OK lt h.slot n j → OK lt (down lt h i n).1.slot n j) := by
  obtain ⟨h1, h2⟩ := downLoop_spec S n n h i (by omega) hok
  exact ⟨h1, h2, fun j hj hj' => ok_outside h1 hj hj'⟩

theorem downLoop_frame (n : Nat) (b : Bool) : ∀ (f : Nat) (h : Heap) (i : Nat),
    (downLoop lt n b f h i).1.len = h.len ∧ (downLoop lt n b f h i).1.maxed = h.maxed := by
  intro f
  induction f with
  | zero => intro h i; exact ⟨rfl, rfl⟩
  | succ f ih =>
    intro h i
    unfold downLoop
    split
    · exact ⟨rfl, rfl⟩
    · simp only
      split
      · exact ⟨rfl, rfl⟩
      · split
        · exact ⟨rfl, rfl⟩
        · split
          · exact ih _ _
          · exact ih _ _

theorem down_len (h : Heap) (i n : Nat) : (down lt h i n).1.len = h.len := (downLoop_frame _ _ _ _ _).1
theorem down_maxed (h : Heap) (i n : Nat) : (down lt h i n).1.maxed = h.maxed := (downLoop_frame _ _ _ _ _).2

/-! ### `up` -/

/-- One pair of the order. -/
def PairOK (lt : Nat → Nat → Bool) (a : Nat → Nat) (j d : Nat) : Prop := ord lt (isMinLevel j) (a j) (a d)

theorem upLoop_spec (S : SWO lt) (n : Nat) : ∀ (f : Nat) (h : Heap) (i : Nat), i ≤ f → i < n →
    (∀ j d, Sub j d → d < n → ¬ (d = i ∧ j ≠ i ∧ isMinLevel j = isMinLevel i) → PairOK lt h.slot j d) →
    PermOn (· < n) h.slot (upLoop lt (isMinLevel i) f h i).slot ∧
    ∀ j, OK lt (upLoop lt (isMinLevel i) f h i).slot n j := by
  have stop : ∀ (h : Heap) (i : Nat), i ≤ 2 →
      (∀ j d, Sub j d → d < n → ¬ (d = i ∧ j ≠ i ∧ isMinLevel j = isMinLevel i) → PairOK lt h.slot j d) →
      ∀ j, OK lt h.slot n j := by
    intro h i hi hok j d hd hdn
    refine hok j d hd hdn ?_
    rintro ⟨rfl, hne, hlev⟩
    rcases hd.cases' with rfl | ⟨h0, hp⟩
    · exact hne rfl
    · have h1 := hp.le
      have : j = 0 := by omega
      subst this
      have h2 := isMin_parent h0
      have h3 : (d - 1) / 2 = 0 := by omega
      rw [h3, hlev] at h2
      cases h4 : isMinLevel d <;> simp [h4] at h2
  intro f
  induction f with
  | zero =>
    intro h i hf hin hok
    exact ⟨PermOn.refl _ _, stop h i (by omega) hok⟩
  | succ f ih =>
    intro h i hf hin hok
    unfold upLoop
    by_cases h2 : i > 2
    · rw [if_pos h2]
      simp only
      set g := grandparent i with hg
      set p := (i - 1) / 2 with hp
      have hgp : (p - 1) / 2 = g := rfl
      have hp0 : 0 < p := by omega
      have hgi : g < p := by omega
      have hpi : p < i := by omega
      have hSgp : Sub g p := .step hp0 (by rw [hgp]; exact .self)
      have hSpi : Sub p i := .step (by omega) .self
      have hSgi : Sub g i := hSgp.trans hSpi
      have hlp : isMinLevel p = !isMinLevel i := isMin_parent (by omega)
      have hlg : isMinLevel g = isMinLevel i := by
        have := isMin_parent hp0
        rw [hgp, hlp] at this
        simpa using this
      -- strict ancestors of `i`
      have anc : ∀ j, Sub j i → j ≠ i → j ≠ p → Sub j g := by
        intro j hj h1 h2
        rcases hj.cases' with h3 | ⟨_, h3⟩
        · exact absurd h3.symm h1
        · rcases h3.cases' with h4 | ⟨_, h4⟩
          · exact absurd h4.symm h2
          · exact h4
      by_cases hc : (less lt h i g != isMinLevel i) = true
      · rw [if_pos hc]
        refine ⟨PermOn.refl _ _, ?_⟩
        have hord : ord lt (isMinLevel i) (h.slot g) (h.slot i) := by
          refine ord_of_false S ?_
          simpa [less, bne_iff_ne] using hc
        intro j d hd hdn
        by_cases hbad : d = i ∧ j ≠ i ∧ isMinLevel j = isMinLevel i
        · obtain ⟨rfl, hne, hlev⟩ := hbad
          have hjp : j ≠ p := by
            rintro rfl
            rw [hlp] at hlev
            cases h4 : isMinLevel d <;> simp [h4] at hlev
          have h5 := hok j g (anc j hd hne hjp) (by omega) (by omega)
          unfold PairOK at h5
          rw [hlev] at h5 ⊢
          exact ord_trans S h5 hord
        · exact hok j d hd hdn hbad
      · rw [if_neg hc]
        have hord : ord lt (isMinLevel i) (h.slot i) (h.slot g) := by
          refine ord_of_true S ?_
          simpa [less, bne_iff_ne] using hc
        have hP : PermOn (· < n) h.slot (swap h i g).slot := permOn_swap _ h hin (by omega)
        have hpre : ∀ j d, Sub j d → d < n → ¬ (d = g ∧ j ≠ g ∧ isMinLevel j = isMinLevel g) →
            PairOK lt (swap h i g).slot j d := by
          intro j d hd hdn hnb
          unfold PairOK
          by_cases hdg : d = g
          · subst hdg
            by_cases hjg : j = g
            · subst hjg; exact ord_refl S _ _
            have hji : j ≠ i := by rintro rfl; have := hd.le; omega
            rw [swap_j, swap_o h hji hjg]
            have hl : isMinLevel j ≠ isMinLevel i := by rw [← hlg]; tauto
            exact hok j i (hd.trans hSgi) hin (by tauto)
          by_cases hdi : d = i
          · subst hdi
            by_cases hjd : j = d
            · subst hjd; exact ord_refl S _ _
            rw [swap_i]
            by_cases hjg : j = g
            · subst hjg
              rw [swap_j, hlg]
              exact hord
            rw [swap_o h hjd hjg]
            by_cases hjp : j = p
            · subst hjp
              rw [hlp, ord_not]
              have := hok g p hSgp (by omega) (by omega)
              unfold PairOK at this
              rwa [hlg] at this
            · exact hok j g (anc j hd hjd hjp) (by omega) (by omega)
          rw [swap_o h hdi hdg]
          by_cases hjg : j = g
          · subst hjg
            rw [swap_j, hlg]
            have := hok g d hd hdn (by omega)
            unfold PairOK at this
            rw [hlg] at this
            exact ord_trans S hord this
          by_cases hji : j = i
          · subst hji
            rw [swap_i]
            have := hok g d (hSgi.trans hd) hdn (by omega)
            unfold PairOK at this
            rwa [hlg] at this
          · rw [swap_o h hji hjg]
            exact hok j d hd hdn (by omega)
        have := ih (swap h i g) g (by omega) (by omega) hpre
        rw [hlg] at this
        exact ⟨hP.trans this.1, this.2⟩
    · rw [if_neg h2]
      exact ⟨PermOn.refl _ _, stop h i (by omega) hok⟩

/-- `up` repairs a heap in which only slot `i` is wrong, and only towards its ancestors. -/
theorem up_spec (S : SWO lt) {h : Heap} {i n : Nat} (hin : i < n)
    (hok : ∀ j d, Sub j d → d < n → ¬ (d = i ∧ j ≠ i) → PairOK lt h.slot j d) :
    PermOn (· < n) h.slot (up lt h i).slot ∧ ∀ j, OK lt (up lt h i).slot n j := by
  unfold up
  simp only
  by_cases hc : i > 0 ∧ (less lt h (parent i) i == isMinLevel i) = true
  · rw [if_pos hc]
    set p := parent i with hp
    have hpe : (i - 1) / 2 = p := rfl
    have hpi : p < i := by omega
    have hlp : isMinLevel p = !isMinLevel i := by rw [← hpe]; exact isMin_parent hc.1
    have hSpi : Sub p i := .step hc.1 .self
    have hord : ord lt (isMinLevel i) (h.slot p) (h.slot i) := ord_of_true S hc.2
    have anc : ∀ j, Sub j i → j ≠ i → Sub j p := by
      intro j hj h1
      rcases hj.cases' with h3 | ⟨_, h3⟩
      · exact absurd h3.symm h1
      · exact h3
    have hP : PermOn (· < n) h.slot (swap h i p).slot := permOn_swap _ h hin (by omega)
    have hpre : ∀ j d, Sub j d → d < n → ¬ (d = p ∧ j ≠ p ∧ isMinLevel j = isMinLevel p) →
        PairOK lt (swap h i p).slot j d := by
      intro j d hd hdn hnb
      unfold PairOK
      by_cases hdp : d = p
      · subst hdp
        by_cases hjp : j = p
        · subst hjp; exact ord_refl S _ _
        have hji : j ≠ i := by rintro rfl; have := hd.le; omega
        rw [swap_j, swap_o h hji hjp]
        have hl : isMinLevel j = isMinLevel i := by
          have : isMinLevel j ≠ isMinLevel p := by tauto
          rw [hlp] at this
          cases h4 : isMinLevel i <;> cases h5 : isMinLevel j <;> simp [h4, h5] at this ⊢
        have := hok j p hd hdn (by omega)
        unfold PairOK at this
        rw [hl] at this ⊢
        exact ord_trans S this hord
      by_cases hdi : d = i
      · subst hdi
        by_cases hjd : j = d
        · subst hjd; exact ord_refl S _ _
        rw [swap_i]
        by_cases hjp : j = p
        · subst hjp
          rw [swap_j, hlp, ord_not]
          exact hord
        · rw [swap_o h hjd hjp]
          exact hok j p (anc j hd hjd) (by omega) (by omega)
      rw [swap_o h hdi hdp]
      by_cases hjp : j = p
      · subst hjp
        rw [swap_j, hlp]
        have := hok p d hd hdn (by omega)
        unfold PairOK at this
        rw [hlp] at this
        exact ord_trans S (ord_not.mpr hord) this
      by_cases hji : j = i
      · subst hji
        rw [swap_i]
        exact ord_trans S hord (hok j d hd hdn (by omega))
      · rw [swap_o h hji hjp]
        exact hok j d hd hdn (by omega)
    have := upLoop_spec S n i (swap h i p) p (by omega) (by omega) hpre
    rw [hlp] at this
    exact ⟨hP.trans this.1, this.2⟩
  · rw [if_neg hc]
    refine upLoop_spec S n i h i (Nat.le_refl _) hin ?_
    intro j d hd hdn hnb
    by_cases hdi : d = i ∧ j ≠ i
    · obtain ⟨rfl, hne⟩ := hdi
      have hi0 : d > 0 := by
        rcases hd.cases' with h3 | ⟨h3, _⟩
        · exact absurd h3.symm hne
        · exact h3
      set p := parent d with hp
      have hpe : (d - 1) / 2 = p := rfl
      have hlp : isMinLevel p = !isMinLevel d := by rw [← hpe]; exact isMin_parent hi0
      have hord : ord lt (isMinLevel d) (h.slot d) (h.slot p) := ord_of_false S (fun ht => hc ⟨hi0, ht⟩)
      have hjp : Sub j p := by
        rcases hd.cases' with h3 | ⟨_, h3⟩
        · exact absurd h3.symm hne
        · exact h3
      have hl : isMinLevel j = !isMinLevel d := by
        have : isMinLevel j ≠ isMinLevel d := by tauto
        cases h4 : isMinLevel d <;> cases h5 : isMinLevel j <;> simp [h4, h5] at this ⊢
      have := hok j p hjp (by omega) (by omega)
      unfold PairOK at *
      rw [hl] at this ⊢
      exact ord_trans S this (ord_not.mpr hord)
    · exact hok j d hd hdn hdi

theorem upLoop_frame (b : Bool) : ∀ (f : Nat) (h : Heap) (i : Nat),
    (upLoop lt b f h i).len = h.len ∧ (upLoop lt b f h i).maxed = h.maxed := by
  intro f
  induction f with
  | zero => intro h i; exact ⟨rfl, rfl⟩
  | succ f ih =>
    intro h i
    unfold upLoop
    split
    · simp only
      split
      · exact ⟨rfl, rfl⟩
      · exact ih _ _
    · exact ⟨rfl, rfl⟩

theorem up_frame (h : Heap) (i : Nat) : (up lt h i).len = h.len ∧ (up lt h i).maxed = h.maxed := by
  unfold up
  simp only
  split
  · exact upLoop_frame _ _ _ _
  · exact upLoop_frame _ _ _ _

/-! ### Contents -/

/-- The items in the heap. -/
def contents (h : Heap) : List Nat := (List.range h.len).map h.slot

theorem perm_of_permOn {a a' : Nat → Nat} {n : Nat} (h : PermOn (· < n) a a') :
    ((List.range n).map a').Perm ((List.range n).map a) := by
  obtain ⟨σ, rfl, h2⟩ := h
  rw [← List.map_map]
  refine List.Perm.map a ?_
  refine (List.perm_ext_iff_of_nodup ?_ List.nodup_range).mpr ?_
  · rw [List.Nodup, List.pairwise_map]
    exact List.Pairwise.imp (fun hab hc => hab (σ.injective hc)) List.nodup_range
  · intro x
    simp only [List.mem_map, List.mem_range]
    constructor
    · rintro ⟨y, hy, rfl⟩
      exact PermOn.mem h2 hy
    · intro hx
      refine ⟨σ.symm x, ?_, by simp⟩
      by_contra hc
      have := h2 _ hc
      rw [Equiv.apply_symm_apply] at this
      rw [← this] at hc
      exact hc hx

theorem contents_perm {h h' : Heap} (hl : h'.len = h.len) (hp : PermOn (· < h.len) h.slot h'.slot) :
    (contents h').Perm (contents h) := by
  unfold contents
  rw [hl]
  exact perm_of_permOn hp

/-- The heap invariant. When the maximum has been moved to the last slot (`maxed`), the slots before it
form a heap and the last one is a maximum. -/
structure Inv (lt : Nat → Nat → Bool) (h : Heap) : Prop where
  plain : h.maxed = false → ∀ j, OK lt h.slot h.len j
  maxed : h.maxed = true → 0 < h.len ∧ (∀ j, OK lt h.slot (h.len - 1) j) ∧
    ∀ d, d < h.len → lt (h.slot (h.len - 1)) (h.slot d) = false

theorem ok_mono {a : Nat → Nat} {n n' j : Nat} (h : OK lt a n j) (hn : n' ≤ n) : OK lt a n' j :=
  fun d hd hdn => h d hd (by omega)

theorem ok_congr {a a' : Nat → Nat} {n j : Nat} (h : OK lt a n j) (ha : ∀ d, d < n → a' d = a d) : OK lt a' n j := by
  intro d hd hdn
  rw [ha d hdn, ha j (by have := hd.le; omega)]
  exact h d hd hdn

/-- `popMin`-like step: the last slot goes to slot `i`, everything else is a heap. -/
theorem drop_spec (S : SWO lt) {h : Heap} {i n : Nat} (hi : i ≤ n)
    (hok : ∀ j, j ≠ i → j < n → OK lt h.slot n j)
    (hanc : ∀ j, ¬ Sub i j → OK lt (swap h i n).slot n j) :
    (∀ j, OK lt (down lt (swap h i n) i n).1.slot n j) ∧
    (down lt (swap h i n) i n).1.slot n = h.slot i ∧
    PermOn (· < n + 1) h.slot (down lt (swap h i n) i n).1.slot := by
  have hpre : ∀ j, Sub i j → j ≠ i → OK lt (swap h i n).slot n j := by
    intro j hj hji d hd hdn
    have h1 := hj.le
    have h2 := hd.le
    rw [swap_o h (by omega) (by omega), swap_o h (by omega) (by omega)]
    exact hok j hji (by omega) d hd hdn
  obtain ⟨p1, p2, p3⟩ := down_spec S hpre
  refine ⟨?_, ?_, ?_⟩
  · intro j
    by_cases hj : Sub i j
    · exact p2 j hj
    · exact p3 j hj (hanc j hj)
  · rw [p1.out (by simp), swap_j]
  · exact (permOn_swap _ h (by omega) (by omega)).trans (p1.mono (fun x hx => by omega))

theorem min_of_ok {h : Heap} {n : Nat} (hok : OK lt h.slot n 0) (d : Nat) (hd : d < n) :
    lt (h.slot d) (h.slot 0) = false := by
  have := hok d (Sub.zero d) hd
  have h0 : isMinLevel 0 = true := by decide
  rw [h0] at this
  simpa [ord] using this

theorem inv_swap_root (S : SWO lt) {h : Heap} {n : Nat} (hok : ∀ j, j ≠ 0 → j < n → OK lt h.slot n j) :
    (∀ j, OK lt (down lt (swap h 0 n) 0 n).1.slot n j) ∧
    (down lt (swap h 0 n) 0 n).1.slot n = h.slot 0 ∧
    PermOn (· < n + 1) h.slot (down lt (swap h 0 n) 0 n).1.slot :=
  drop_spec S (Nat.zero_le _) hok (fun j hj => absurd (Sub.zero j) hj)

theorem contents_pop {h : Heap} (hl : 0 < h.len) :
    (contents h).Perm (h.slot (h.len - 1) :: contents { h with len := h.len - 1 }) := by
  unfold contents
  obtain ⟨n, hn⟩ : ∃ n, h.len = n + 1 := ⟨h.len - 1, by omega⟩
  rw [hn]
  simp only [Nat.add_sub_cancel, List.range_succ, List.map_append, List.map_cons, List.map_nil]
  exact List.perm_append_comm

theorem isMin1 : isMinLevel 1 = false := by decide
theorem isMin2 : isMinLevel 2 = false := by decide

/-- `setMax` moves a maximum to the last slot and keeps a heap before it. -/
theorem setMax_spec (S : SWO lt) {h : Heap} (hl : 0 < h.len) (hok : ∀ j, OK lt h.slot h.len j) :
    (setMax lt h).len = h.len ∧ (setMax lt h).maxed = h.maxed ∧
    PermOn (· < h.len) h.slot (setMax lt h).slot ∧
    (∀ j, OK lt (setMax lt h).slot (h.len - 1) j) ∧
    ∀ d, d < h.len → lt ((setMax lt h).slot (h.len - 1)) (h.slot d) = false := by
  obtain ⟨n, hn⟩ : ∃ n, h.len = n + 1 := ⟨h.len - 1, by omega⟩
  have hmain : ∀ i, i ≤ n → i ≤ 2 → (∀ d, d < h.len → lt (h.slot i) (h.slot d) = false) →
      (down lt (swap h i n) i n).1.len = h.len ∧ (down lt (swap h i n) i n).1.maxed = h.maxed ∧
      PermOn (· < h.len) h.slot (down lt (swap h i n) i n).1.slot ∧
      (∀ j, OK lt (down lt (swap h i n) i n).1.slot n j) ∧
      ∀ d, d < h.len → lt ((down lt (swap h i n) i n).1.slot n) (h.slot d) = false := by
    intro i hi hi2 hmax
    have hanc : ∀ j, ¬ Sub i j → OK lt (swap h i n).slot n j := by
      intro j hj d hd hdn
      have hd' := hd.le
      have hji : j ≠ i := by rintro rfl; exact hj .self
      by_cases hdi : d = i
      · subst hdi
        have hj0 : j = 0 := by
          rcases hd.cases' with h3 | ⟨_, h3⟩
          · exact absurd h3.symm hji
          · have := h3.le; omega
        subst hj0
        rw [swap_i, swap_o h hji (by omega)]
        exact hok 0 n (Sub.zero n) (by omega)
      · rw [swap_o h hji (by omega), swap_o h hdi (by omega)]
        exact hok j d hd (by omega)
    obtain ⟨q1, q2, q3⟩ := drop_spec S hi (fun j _ _ => ok_mono (hok j) (by omega)) hanc
    refine ⟨by rw [down_len, swap_len], by rw [down_maxed, swap_maxed], by rw [hn]; exact q3, q1, ?_⟩
    intro d hd
    rw [q2]
    exact hmax d hd
  -- everything is below one of the slots 0, 1, 2
  have hdesc : ∀ d, d < h.len → d = 0 ∨ (1 < h.len ∧ lt (h.slot 1) (h.slot d) = false) ∨
      (2 < h.len ∧ lt (h.slot 2) (h.slot d) = false) := by
    intro d hd
    rcases (Sub.zero d).down_cases with h3 | h3 | h3
    · exact .inl h3
    · have := hok 1 d h3 hd
      rw [isMin1] at this
      have h4 := h3.le
      exact .inr (.inl ⟨by omega, by simpa [ord] using this⟩)
    · have := hok 2 d h3 hd
      rw [isMin2] at this
      have h4 := h3.le
      exact .inr (.inr ⟨by omega, by simpa [ord] using this⟩)
  have h0 : ∀ d, d < h.len → lt (h.slot d) (h.slot 0) = false := fun d hd => min_of_ok (hok 0) d hd
  have hne : h.len - 1 = n := by omega
  have hslot : maxSlot lt h ≤ n ∧ maxSlot lt h ≤ 2 ∧ ∀ d, d < h.len → lt (h.slot (maxSlot lt h)) (h.slot d) = false := by
    by_cases c1 : 1 < h.len
    · have c1' : lt (h.slot 1) (h.slot 0) = false := h0 1 c1
      by_cases c2 : 2 < h.len ∧ lt (h.slot 2) (h.slot 1) = false
      · have e : maxSlot lt h = 2 := by simp [maxSlot, less, c1, c1', c2]
        rw [e]
        refine ⟨by omega, by omega, ?_⟩
        intro d hd
        rcases hdesc d hd with h3 | h3 | h3
        · rw [h3]; exact h0 2 c2.1
        · exact S.negtrans _ _ _ c2.2 h3.2
        · exact h3.2
      · have e : maxSlot lt h = 1 := by
          have e1 : (if 1 < h.len ∧ less lt h 1 0 = false then 1 else 0) = 1 := if_pos ⟨c1, c1'⟩
          unfold maxSlot
          simp only [e1]
          exact if_neg c2
        rw [e]
        refine ⟨by omega, by omega, ?_⟩
        intro d hd
        rcases hdesc d hd with h3 | h3 | h3
        · rw [h3]; exact h0 1 c1
        · exact h3.2
        · have : lt (h.slot 2) (h.slot 1) = true := by
            cases h5 : lt (h.slot 2) (h.slot 1) with
            | false => exact absurd ⟨h3.1, h5⟩ c2
            | true => rfl
          exact S.negtrans _ _ _ (S.asymm _ _ this) h3.2
    · have e : maxSlot lt h = 0 := by
        have : ¬ 2 < h.len := by omega
        simp [maxSlot, c1, this]
      rw [e]
      refine ⟨by omega, by omega, ?_⟩
      intro d hd
      have : d = 0 := by omega
      rw [this]
      exact S.irrefl _
  unfold setMax
  rw [hne]
  exact hmain _ hslot.1 hslot.2.1 hslot.2.2

end Verif.Heap
