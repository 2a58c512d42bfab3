import Mathlib.Tactic.Common
import Verif.BTree.Model
/-
Behaviour of the ordered tree under a strict weak order on a domain `D`.
-/
namespace Verif.BTree

variable {T : Type}

/-- `less` is a strict weak order on the items satisfying `D`. -/
structure OrdOn (less : T → T → Bool) (D : T → Prop) : Prop where
  irrefl : ∀ a, D a → less a a = false
  trans : ∀ a b c, D a → D b → D c → less a b = true → less b c = true → less a c = true
  cotrans : ∀ a b c, D a → D b → D c → less a c = true → less a b = true ∨ less b c = true

/-- Two items the tree regards as equal. -/
def Eqv (less : T → T → Bool) (a b : T) : Prop := less a b = false ∧ less b a = false

instance (less : T → T → Bool) (a b : T) : Decidable (Eqv less a b) := inferInstanceAs (Decidable (_ ∧ _))

/-- Ascending and without two equal items. -/
def Sorted (less : T → T → Bool) (l : List T) : Prop := l.Pairwise fun a b => less a b = true

variable {less : T → T → Bool} {D : T → Prop}

theorem Eqv.refl' (h : OrdOn less D) {a : T} (ha : D a) : Eqv less a a := ⟨h.irrefl a ha, h.irrefl a ha⟩

theorem Eqv.symm' {a b : T} (h : Eqv less a b) : Eqv less b a := ⟨h.2, h.1⟩

theorem eqv_comm {a b : T} : Eqv less a b ↔ Eqv less b a := ⟨Eqv.symm', Eqv.symm'⟩

theorem OrdOn.asymm (h : OrdOn less D) {a b : T} (ha : D a) (hb : D b) (hab : less a b = true) :
    less b a = false := by
  by_contra hc
  have := h.trans a b a ha hb ha hab (by simpa using hc)
  rw [h.irrefl a ha] at this
  exact Bool.noConfusion this

theorem Eqv.trans' (h : OrdOn less D) {a b c : T} (ha : D a) (hb : D b) (hc : D c)
    (h1 : Eqv less a b) (h2 : Eqv less b c) : Eqv less a c := by
  constructor
  · by_contra hh
    rcases h.cotrans a b c ha hb hc (by simpa using hh) with hx | hx
    · rw [h1.1] at hx; exact Bool.noConfusion hx
    · rw [h2.1] at hx; exact Bool.noConfusion hx
  · by_contra hh
    rcases h.cotrans c b a hc hb ha (by simpa using hh) with hx | hx
    · rw [h2.2] at hx; exact Bool.noConfusion hx
    · rw [h1.2] at hx; exact Bool.noConfusion hx

theorem Eqv.less_left (h : OrdOn less D) {a b c : T} (ha : D a) (hb : D b) (hc : D c)
    (h1 : Eqv less a b) (h2 : less b c = true) : less a c = true := by
  rcases h.cotrans b a c hb ha hc h2 with hx | hx
  · rw [h1.2] at hx; exact Bool.noConfusion hx
  · exact hx

theorem Eqv.less_right (h : OrdOn less D) {a b c : T} (ha : D a) (hb : D b) (hc : D c)
    (h1 : Eqv less a b) (h2 : less c b = true) : less c a = true := by
  rcases h.cotrans c a b hc ha hb h2 with hx | hx
  · exact hx
  · rw [h1.1] at hx; exact Bool.noConfusion hx

theorem mem_replaceOrInsert (h : OrdOn less D) {x : T} (hx : D x) {l : List T} (hl : ∀ y ∈ l, D y)
    (hs : Sorted less l) (y : T) :
    y ∈ (replaceOrInsert less x l).1 ↔ y = x ∨ (y ∈ l ∧ ¬ Eqv less x y) := by
  induction l with
  | nil => simp [replaceOrInsert]
  | cons z zs ih =>
    have hz : D z := hl z (by simp)
    have hzs : ∀ y ∈ zs, D y := fun y hy => hl y (by simp [hy])
    have hs' := List.pairwise_cons.mp hs
    simp only [replaceOrInsert]
    split
    · rename_i hxz
      simp only [List.mem_cons]
      constructor
      · rintro (rfl | rfl | hy)
        · exact .inl rfl
        · exact .inr ⟨.inl rfl, fun he => by rw [he.1] at hxz; exact Bool.noConfusion hxz⟩
        · refine .inr ⟨.inr hy, fun he => ?_⟩
          have := h.trans x z y hx hz (hzs y hy) hxz (hs'.1 y hy)
          rw [he.1] at this; exact Bool.noConfusion this
      · rintro (rfl | ⟨hy, _⟩)
        · exact .inl rfl
        · exact .inr hy
    · split
      · rename_i hzx
        simp only [List.mem_cons, ih hzs hs'.2]
        constructor
        · rintro (rfl | rfl | ⟨hy, hn⟩)
          · exact .inr ⟨.inl rfl, fun he => by rw [he.2] at hzx; exact Bool.noConfusion hzx⟩
          · exact .inl rfl
          · exact .inr ⟨.inr hy, hn⟩
        · rintro (rfl | ⟨rfl | hy, hn⟩)
          · exact .inr (.inl rfl)
          · exact .inl rfl
          · exact .inr (.inr ⟨hy, hn⟩)
      · rename_i h1 h2
        have he : Eqv less x z := ⟨by simpa using h1, by simpa using h2⟩
        simp only [List.mem_cons]
        constructor
        · rintro (rfl | hy)
          · exact .inl rfl
          · refine .inr ⟨.inr hy, fun hxy => ?_⟩
            have := Eqv.trans' h hz hx (hzs y hy) he.symm' hxy
            have h3 := hs'.1 y hy
            rw [this.1] at h3; exact Bool.noConfusion h3
        · rintro (rfl | ⟨rfl | hy, hn⟩)
          · exact .inl rfl
          · exact absurd he hn
          · exact .inr hy

theorem sorted_replaceOrInsert (h : OrdOn less D) {x : T} (hx : D x) {l : List T} (hl : ∀ y ∈ l, D y)
    (hs : Sorted less l) : Sorted less (replaceOrInsert less x l).1 := by
  induction l with
  | nil => simp [replaceOrInsert, Sorted]
  | cons z zs ih =>
    have hz : D z := hl z (by simp)
    have hzs : ∀ y ∈ zs, D y := fun y hy => hl y (by simp [hy])
    have hs' := List.pairwise_cons.mp hs
    simp only [replaceOrInsert]
    split
    · rename_i hxz
      refine List.pairwise_cons.mpr ⟨?_, hs⟩
      intro y hy
      rcases List.mem_cons.mp hy with rfl | hy
      · exact hxz
      · exact h.trans x z y hx hz (hzs y hy) hxz (hs'.1 y hy)
    · split
      · rename_i hzx
        refine List.pairwise_cons.mpr ⟨?_, ih hzs hs'.2⟩
        intro y hy
        rcases (mem_replaceOrInsert h hx hzs hs'.2 y).mp hy with rfl | ⟨hy, _⟩
        · exact hzx
        · exact hs'.1 y hy
      · rename_i h1 h2
        have he : Eqv less x z := ⟨by simpa using h1, by simpa using h2⟩
        refine List.pairwise_cons.mpr ⟨?_, hs'.2⟩
        intro y hy
        exact Eqv.less_left h hx hz (hzs y hy) he (hs'.1 y hy)

theorem dom_replaceOrInsert (h : OrdOn less D) {x : T} (hx : D x) {l : List T} (hl : ∀ y ∈ l, D y)
    (hs : Sorted less l) : ∀ y ∈ (replaceOrInsert less x l).1, D y := by
  intro y hy
  rcases (mem_replaceOrInsert h hx hl hs y).mp hy with rfl | ⟨hy, _⟩
  · exact hx
  · exact hl y hy

theorem mem_delete (h : OrdOn less D) {x : T} (hx : D x) {l : List T} (hl : ∀ y ∈ l, D y)
    (hs : Sorted less l) (y : T) : y ∈ (delete less x l).1 ↔ y ∈ l ∧ ¬ Eqv less x y := by
  induction l with
  | nil => simp [delete]
  | cons z zs ih =>
    have hz : D z := hl z (by simp)
    have hzs : ∀ y ∈ zs, D y := fun y hy => hl y (by simp [hy])
    have hs' := List.pairwise_cons.mp hs
    simp only [delete]
    split
    · rename_i hxz
      simp only [List.mem_cons]
      constructor
      · rintro (rfl | hy)
        · exact ⟨.inl rfl, fun he => by rw [he.1] at hxz; exact Bool.noConfusion hxz⟩
        · refine ⟨.inr hy, fun he => ?_⟩
          have := h.trans x z y hx hz (hzs y hy) hxz (hs'.1 y hy)
          rw [he.1] at this; exact Bool.noConfusion this
      · exact fun hy => hy.1
    · split
      · rename_i hzx
        simp only [List.mem_cons, ih hzs hs'.2]
        constructor
        · rintro (rfl | ⟨hy, hn⟩)
          · exact ⟨.inl rfl, fun he => by rw [he.2] at hzx; exact Bool.noConfusion hzx⟩
          · exact ⟨.inr hy, hn⟩
        · rintro ⟨rfl | hy, hn⟩
          · exact .inl rfl
          · exact .inr ⟨hy, hn⟩
      · rename_i h1 h2
        have he : Eqv less x z := ⟨by simpa using h1, by simpa using h2⟩
        simp only [List.mem_cons]
        constructor
        · intro hy
          refine ⟨.inr hy, fun hxy => ?_⟩
          have := Eqv.trans' h hz hx (hzs y hy) he.symm' hxy
          have h3 := hs'.1 y hy
          rw [this.1] at h3; exact Bool.noConfusion h3
        · rintro ⟨rfl | hy, hn⟩
          · exact absurd he hn
          · exact hy

theorem delete_sublist (x : T) (l : List T) : (delete less x l).1.Sublist l := by
  induction l with
  | nil => simp [delete]
  | cons z zs ih =>
    simp only [delete]
    split
    · exact List.Sublist.refl _
    · split
      · exact List.Sublist.cons_cons z ih
      · exact List.sublist_cons_self z zs

theorem sorted_delete (x : T) {l : List T} (hs : Sorted less l) : Sorted less (delete less x l).1 :=
  hs.sublist (delete_sublist x l)

theorem dom_delete (x : T) {l : List T} (hl : ∀ y ∈ l, D y) : ∀ y ∈ (delete less x l).1, D y :=
  fun y hy => hl y ((delete_sublist x l).subset hy)

theorem get_eq_some_iff (h : OrdOn less D) {x : T} (hx : D x) {l : List T} (hl : ∀ y ∈ l, D y)
    (hs : Sorted less l) (y : T) : get less x l = some y ↔ y ∈ l ∧ Eqv less x y := by
  induction l with
  | nil => simp [get]
  | cons z zs ih =>
    have hz : D z := hl z (by simp)
    have hzs : ∀ y ∈ zs, D y := fun y hy => hl y (by simp [hy])
    have hs' := List.pairwise_cons.mp hs
    simp only [get]
    split
    · rename_i hxz
      simp only [reduceCtorEq, List.mem_cons, false_iff, not_and]
      rintro (rfl | hy) he
      · rw [he.1] at hxz; exact Bool.noConfusion hxz
      · have := h.trans x z y hx hz (hzs y hy) hxz (hs'.1 y hy)
        rw [he.1] at this; exact Bool.noConfusion this
    · split
      · rename_i hzx
        rw [ih hzs hs'.2]
        constructor
        · exact fun hy => ⟨List.mem_cons_of_mem _ hy.1, hy.2⟩
        · rintro ⟨hy, he⟩
          rcases List.mem_cons.mp hy with rfl | hy
          · rw [he.2] at hzx; exact Bool.noConfusion hzx
          · exact ⟨hy, he⟩
      · rename_i h1 h2
        have he : Eqv less x z := ⟨by simpa using h1, by simpa using h2⟩
        constructor
        · intro hh
          rw [← Option.some.inj hh]
          exact ⟨by simp, he⟩
        · rintro ⟨hy, hxy⟩
          rcases List.mem_cons.mp hy with rfl | hy
          · rfl
          · have := Eqv.trans' h hz hx (hzs y hy) he.symm' hxy
            have h3 := hs'.1 y hy
            rw [this.1] at h3; exact Bool.noConfusion h3

theorem get_eq_none_iff (h : OrdOn less D) {x : T} (hx : D x) {l : List T} (hl : ∀ y ∈ l, D y)
    (hs : Sorted less l) : get less x l = none ↔ ∀ y ∈ l, ¬ Eqv less x y := by
  constructor
  · intro hg y hy he
    rw [(get_eq_some_iff h hx hl hs y).mpr ⟨hy, he⟩] at hg
    cases hg
  · intro hall
    cases hg : get less x l with
    | none => rfl
    | some y =>
      have := (get_eq_some_iff h hx hl hs y).mp hg
      exact absurd this.2 (hall y this.1)

/-- The replaced item is the one `Get` would have returned. -/
theorem replaceOrInsert_old (x : T) (l : List T) : (replaceOrInsert less x l).2 = get less x l := by
  induction l with
  | nil => rfl
  | cons z zs ih =>
    simp only [replaceOrInsert, get]
    split
    · rfl
    · split
      · exact ih
      · rfl

theorem delete_old (x : T) (l : List T) : (delete less x l).2 = get less x l := by
  induction l with
  | nil => rfl
  | cons z zs ih =>
    simp only [delete, get]
    split
    · rfl
    · split
      · exact ih
      · rfl

theorem get_replaceOrInsert (h : OrdOn less D) {x k : T} (hx : D x) (hk : D k) {l : List T}
    (hl : ∀ y ∈ l, D y) (hs : Sorted less l) :
    get less k (replaceOrInsert less x l).1 = if Eqv less k x then some x else get less k l := by
  have hl' := dom_replaceOrInsert h hx hl hs
  have hs' := sorted_replaceOrInsert h hx hl hs
  split
  · rename_i he
    exact (get_eq_some_iff h hk hl' hs' x).mpr ⟨(mem_replaceOrInsert h hx hl hs x).mpr (.inl rfl), he⟩
  · rename_i hne
    apply Option.ext
    intro y
    rw [get_eq_some_iff h hk hl' hs', get_eq_some_iff h hk hl hs, mem_replaceOrInsert h hx hl hs]
    constructor
    · rintro ⟨rfl | ⟨hy, _⟩, he⟩
      · exact absurd he hne
      · exact ⟨hy, he⟩
    · rintro ⟨hy, he⟩
      refine ⟨.inr ⟨hy, fun hxy => hne ?_⟩, he⟩
      exact Eqv.trans' h hk (hl y hy) hx he hxy.symm'

theorem get_delete (h : OrdOn less D) {x k : T} (hx : D x) (hk : D k) {l : List T}
    (hl : ∀ y ∈ l, D y) (hs : Sorted less l) :
    get less k (delete less x l).1 = if Eqv less k x then none else get less k l := by
  have hl' := dom_delete (less := less) x hl
  have hs' := sorted_delete x hs
  split
  · rename_i he
    rw [get_eq_none_iff h hk hl' hs']
    intro y hy hky
    have := (mem_delete h hx hl hs y).mp hy
    exact this.2 (Eqv.trans' h hx hk (hl y this.1) he.symm' hky)
  · rename_i hne
    apply Option.ext
    intro y
    rw [get_eq_some_iff h hk hl' hs', get_eq_some_iff h hk hl hs, mem_delete h hx hl hs]
    constructor
    · exact fun hh => ⟨hh.1.1, hh.2⟩
    · rintro ⟨hy, he⟩
      exact ⟨⟨hy, fun hxy => hne (Eqv.trans' h hk (hl y hy) hx he hxy.symm')⟩, he⟩

theorem length_replaceOrInsert (x : T) (l : List T) :
    (replaceOrInsert less x l).1.length = if (get less x l).isSome then l.length else l.length + 1 := by
  induction l with
  | nil => rfl
  | cons z zs ih =>
    simp only [replaceOrInsert, get]
    split
    · rfl
    · split
      · simp only [List.length_cons, ih]; split <;> rfl
      · rfl

theorem length_delete (x : T) (l : List T) :
    (delete less x l).1.length + (if (get less x l).isSome then 1 else 0) = l.length := by
  induction l with
  | nil => rfl
  | cons z zs ih =>
    simp only [delete, get]
    split
    · rfl
    · split
      · simp only [List.length_cons]; omega
      · rfl

/-! ### Go string comparison -/

theorem bytesLess_irrefl (a : Bytes) : bytesLess a a = false := by
  induction a with
  | nil => rfl
  | cons x xs ih => simp [bytesLess, ih]

theorem bytesLess_trans (a b c : Bytes) (h1 : bytesLess a b = true) (h2 : bytesLess b c = true) :
    bytesLess a c = true := by
  induction a generalizing b c with
  | nil =>
    cases b with
    | nil => simp [bytesLess] at h1
    | cons y ys => cases c with
      | nil => simp [bytesLess] at h2
      | cons z zs => rfl
  | cons x xs ih =>
    cases b with
    | nil => simp [bytesLess] at h1
    | cons y ys => cases c with
      | nil => simp [bytesLess] at h2
      | cons z zs =>
        simp only [bytesLess] at h1 h2 ⊢
        split at h1
        · split at h2
          · rw [if_pos (by omega)]
          · split at h2
            · cases h2
            · rw [if_pos (by omega)]
        · split at h1
          · cases h1
          · split at h2
            · rw [if_pos (by omega)]
            · split at h2
              · cases h2
              · rw [if_neg (by omega), if_neg (by omega)]
                exact ih ys zs h1 h2

theorem bytesLess_tri (a b : Bytes) : bytesLess a b = true ∨ a = b ∨ bytesLess b a = true := by
  induction a generalizing b with
  | nil => cases b <;> simp [bytesLess]
  | cons x xs ih =>
    cases b with
    | nil => simp [bytesLess]
    | cons y ys =>
      simp only [bytesLess]
      rcases Nat.lt_trichotomy x.toNat y.toNat with h | h | h
      · simp [h]
      · have hxy : x = y := BitVec.eq_of_toNat_eq h
        subst hxy
        simpa using ih ys
      · simp [h]

theorem bytesLess_eqv (a b : Bytes) : Eqv bytesLess a b ↔ a = b := by
  constructor
  · rintro ⟨h1, h2⟩
    rcases bytesLess_tri a b with h | h | h
    · rw [h] at h1; cases h1
    · exact h
    · rw [h] at h2; cases h2
  · rintro rfl
    exact ⟨bytesLess_irrefl _, bytesLess_irrefl _⟩

theorem bytesLess_ordOn : OrdOn bytesLess (fun _ => True) where
  irrefl a _ := bytesLess_irrefl a
  trans a b c _ _ _ := bytesLess_trans a b c
  cotrans a b c _ _ _ h := by
    rcases bytesLess_tri a b with h1 | rfl | h1
    · exact .inl h1
    · exact .inr h
    · exact .inr (bytesLess_trans b a c h1 h)

/-- An order on keys orders keyed items. -/
theorem OrdOn.comap {K : Type} {lessK : K → K → Bool} {DK : K → Prop} (h : OrdOn lessK DK) (f : T → K) :
    OrdOn (fun a b => lessK (f a) (f b)) (fun a => DK (f a)) where
  irrefl a := h.irrefl (f a)
  trans a b c := h.trans (f a) (f b) (f c)
  cotrans a b c := h.cotrans (f a) (f b) (f c)

end Verif.BTree
