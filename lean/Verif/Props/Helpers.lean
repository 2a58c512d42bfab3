import Verif.Helpers.Model
import Verif.Props.Stores
import Mathlib.Data.List.Nodup
import Mathlib.Tactic.Common
/-
Properties C86 (comparison, hash and number functions) and C87 (slices, pointers and maps).
-/
set_option linter.unusedSimpArgs false
set_option linter.unusedVariables false
namespace Verif.Helpers
open Verif.BTree Verif.Stores

/-! ## C86 -/

/-- Orders that come from a position on a line are orders in the sense of the tree. -/
theorem ordOn_of_place {T : Type} (f : T → Int) (D : T → Prop) (less : T → T → Bool) (h : ∀ a b, D a → D b → (less a b = true ↔ f a < f b)) : OrdOn less D where
  irrefl a ha := by
    by_contra hc
    have := (h a a ha ha).1 (by simpa using hc)
    omega
  trans a b c ha hb hc h1 h2 := (h a c ha hc).2 (by have := (h a b ha hb).1 h1; have := (h b c hb hc).1 h2; omega)
  cotrans a b c ha hb hc h1 := by
    have := (h a c ha hc).1 h1
    by_cases hx : f a < f b
    · exact .inl ((h a b ha hb).2 hx)
    · exact .inr ((h b c hb hc).2 (by omega))

/-- The number is not NaN. -/
def Num {w : Nat} (m : Nat) (x : BitVec w) : Prop := isNaN m x = false

theorem floatLess_iff {w m : Nat} (a b : BitVec w) (ha : Num m a) (hb : Num m b) : floatLess m a b = true ↔ place a < place b := by
  unfold Num at ha hb
  simp [floatLess, ha, hb]

/-- **C86** (integers). `NumberLess` orders the machine integers of every width, signed or unsigned, and only equal numbers are equal to it. -/
theorem C86_integers {w : Nat} : OrdOn (signedLess (w := w)) (fun _ => True) ∧ (∀ a b : BitVec w, Eqv signedLess a b ↔ a = b) ∧
    OrdOn (unsignedLess (w := w)) (fun _ => True) ∧ (∀ a b : BitVec w, Eqv unsignedLess a b ↔ a = b) := by
  have hs : ∀ a b : BitVec w, signedLess a b = true ↔ a.toInt < b.toInt := fun a b => by unfold signedLess; exact BitVec.slt_iff_toInt_lt
  have hu : ∀ a b : BitVec w, unsignedLess a b = true ↔ (a.toNat : Int) < b.toNat := fun a b => by
    unfold unsignedLess; rw [BitVec.ult_iff_lt, BitVec.lt_def]; omega
  refine ⟨ordOn_of_place (·.toInt) _ _ fun a b _ _ => hs a b, ?_, ordOn_of_place (fun a => (a.toNat : Int)) _ _ fun a b _ _ => hu a b, ?_⟩
  · intro a b
    have h1 := hs a b
    have h2 := hs b a
    constructor
    · rintro ⟨ha, hb⟩
      rw [ha] at h1
      rw [hb] at h2
      have : a.toInt = b.toInt := by simp at h1 h2; omega
      exact BitVec.eq_of_toInt_eq this
    · rintro rfl
      have : signedLess a a = false := by
        by_contra hc
        have := h1.1 (by simpa using hc)
        omega
      exact ⟨this, this⟩
  · intro a b
    have h1 := hu a b
    have h2 := hu b a
    constructor
    · rintro ⟨ha, hb⟩
      rw [ha] at h1
      rw [hb] at h2
      have : a.toNat = b.toNat := by simp at h1 h2; omega
      exact BitVec.eq_of_toNat_eq this
    · rintro rfl
      have : unsignedLess a a = false := by
        by_contra hc
        have := h1.1 (by simpa using hc)
        omega
      exact ⟨this, this⟩

theorem toNat_split {w : Nat} (x : BitVec (w + 1)) : x.toNat = mag x + (if x.msb then 2 ^ w else 0) := by
  unfold mag
  have h := x.isLt
  have hm := BitVec.msb_eq_decide x
  simp only [Nat.add_sub_cancel] at hm ⊢
  rw [hm]
  have h2 : 2 ^ (w + 1) = 2 * 2 ^ w := by rw [Nat.pow_succ]; omega
  by_cases hx : 2 ^ w ≤ x.toNat
  · have : x.toNat % 2 ^ w = x.toNat - 2 ^ w := by
      rw [Nat.mod_eq_sub_mod hx, Nat.mod_eq_of_lt (by omega)]
    simp [hx]
    omega
  · simp [hx]
    exact (Nat.mod_eq_of_lt (by omega)).symm

/-- Both are zero (of either sign). -/
def BothZero {w : Nat} (a b : BitVec w) : Prop := mag a = 0 ∧ mag b = 0

/-- **C86** (floats, partial). `NumberLess` orders the floating-point numbers without NaN; apart from the two zeros, only equal numbers are equal to it. (Missing: NaN,
`C86_violated_nan`.) -/
theorem C86_floats_partial {w m : Nat} : OrdOn (floatLess (w := w + 1) m) (Num m) ∧
    ∀ a b : BitVec (w + 1), Num m a → Num m b → (Eqv (floatLess m) a b ↔ a = b ∨ BothZero a b) := by
  refine ⟨ordOn_of_place place _ _ fun a b ha hb => floatLess_iff a b ha hb, ?_⟩
  intro a b ha hb
  have h1 := floatLess_iff a b ha hb
  have h2 := floatLess_iff b a hb ha
  have hpl : Eqv (floatLess m) a b ↔ place a = place b := by
    unfold Eqv
    constructor
    · rintro ⟨e1, e2⟩
      rw [e1] at h1
      rw [e2] at h2
      simp at h1 h2
      omega
    · intro e
      constructor
      · by_contra hc
        have := h1.1 (by simpa using hc)
        omega
      · by_contra hc
        have := h2.1 (by simpa using hc)
        omega
  rw [hpl]
  have sa := toNat_split a
  have sb := toNat_split b
  unfold place BothZero
  constructor
  · intro e
    by_cases hz : mag a = 0 ∧ mag b = 0
    · exact .inr hz
    · left
      apply BitVec.eq_of_toNat_eq
      rw [sa, sb]
      cases ea : a.msb <;> cases eb : b.msb <;> simp [ea, eb] at e ⊢ <;> omega
  · rintro (rfl | ⟨e1, e2⟩)
    · rfl
    · rw [e1, e2]
      simp

/-- **C86** (strings). `StringLess` orders all strings, only equal strings are equal to it, and a sharded tree with `StringLess` and `StringHash` as its functions
(with any hash function of the external package) is one ordered map, for every supported exponent and every sequence of operations. -/
theorem C86_strings (xx : Bytes → BitVec 64) (e : Nat) (he : Supported e) (ops : List (SOp Bytes)) :
    OrdOn stringLess (fun _ => True) ∧ (∀ a b, Eqv stringLess a b ↔ a = b) ∧ (∀ b, byteHash xx b = stringHash xx b) ∧
    ∃ st0 st, newShardedTree Bytes e = some st0 ∧ runSharded stringLess (stringHash xx) st0 ops = some (st, (runSingle stringLess [] ops).2) ∧
      (∀ x, st.get stringLess (stringHash xx) x = some (BTree.get stringLess x (runSingle stringLess [] ops).1)) ∧
      st.len = BTree.len (runSingle stringLess [] ops).1 := by
  have hs : stringLess = bytesLess := rfl
  have ho : OrdOn stringLess (fun _ => True) := bytesLess_ordOn
  have hq : ∀ a b, Eqv stringLess a b ↔ a = b := bytesLess_eqv
  refine ⟨ho, hq, fun _ => rfl, ?_⟩
  obtain ⟨st0, st, h1, h2, h3, h4⟩ := C39_like_one_tree (D := fun _ => True) (less := stringLess) (hash := stringHash xx) ho
    (fun a b _ _ h => by rw [(hq a b).1 h]) e he ops (fun _ _ => trivial)
  exact ⟨st0, st, h1, h2, fun x => h3 x trivial, h4⟩

theorem foldl_least {T : Type} {less : T → T → Bool} {D : T → Prop} (ho : OrdOn less D) (vs : List T) (v0 : T) (h0 : D v0) (hv : ∀ v ∈ vs, D v) :
    (vs.foldl (fun m v => if less v m then v else m) v0) ∈ v0 :: vs ∧
    ∀ v ∈ v0 :: vs, less v (vs.foldl (fun m v => if less v m then v else m) v0) = false := by
  induction vs generalizing v0 with
  | nil => simp [ho.irrefl v0 h0]
  | cons u vs ih =>
    rw [List.foldl_cons]
    have hu := hv u (by simp)
    have hvs : ∀ v ∈ vs, D v := fun v hm => hv v (by simp [hm])
    by_cases hlt : less u v0 = true
    · rw [if_pos hlt]
      obtain ⟨h1, h2⟩ := ih u hu hvs
      have hD : D (vs.foldl (fun m v => if less v m then v else m) u) := by
        rcases List.mem_cons.1 h1 with h | h
        · rw [h]; exact hu
        · exact hvs _ h
      refine ⟨List.mem_cons_of_mem _ h1, ?_⟩
      intro v hm
      rcases List.mem_cons.1 hm with rfl | hm
      · by_contra hc
        have := ho.trans u v _ hu h0 hD hlt (by simpa using hc)
        rw [h2 u (by simp)] at this
        cases this
      · exact h2 v hm
    · rw [if_neg hlt]
      obtain ⟨h1, h2⟩ := ih v0 h0 hvs
      have hD : D (vs.foldl (fun m v => if less v m then v else m) v0) := by
        rcases List.mem_cons.1 h1 with h | h
        · rw [h]; exact h0
        · exact hvs _ h
      constructor
      · rcases List.mem_cons.1 h1 with h | h
        · rw [h]; simp
        · simp [h]
      intro v hm
      rcases List.mem_cons.1 hm with rfl | hm
      · exact h2 v (by simp)
      · rcases List.mem_cons.1 hm with rfl | hm
        · by_contra hc
          rcases ho.cotrans _ v0 _ hu h0 hD (by simpa using hc) with h | h
          · exact hlt h
          · rw [h2 v0 (by simp)] at h
            cases h
        · exact h2 v (by simp [hm])

theorem OrdOn.flip {T : Type} {less : T → T → Bool} {D : T → Prop} (ho : OrdOn less D) : OrdOn (fun a b => less b a) D where
  irrefl := ho.irrefl
  trans a b c ha hb hc h1 h2 := ho.trans c b a hc hb ha h2 h1
  cotrans a b c ha hb hc h := (ho.cotrans c b a hc hb ha h).symm

/-- **C86** (least and greatest float, partial). Among floating-point numbers without NaN, `MinN` and `MaxN` return an argument that is at most, or at least, each argument, and so
do `Min` and `Max`. (Missing: NaN, `C86_violated_min`.) -/
theorem C86_min_max_partial {w m : Nat} (zero : BitVec (w + 1)) (vs : List (BitVec (w + 1))) (hne : vs ≠ []) (hv : ∀ v ∈ vs, Num m v) :
    (Sak.minN (floatLess m) zero vs ∈ vs ∧ ∀ v ∈ vs, place (Sak.minN (floatLess m) zero vs) ≤ place v) ∧
    (Sak.maxN (floatLess m) zero vs ∈ vs ∧ ∀ v ∈ vs, place v ≤ place (Sak.maxN (floatLess m) zero vs)) ∧
    (∀ a b, vs = [a, b] → place (Sak.min (floatLess m) a b) = place (Sak.minN (floatLess m) zero vs) ∧
      place (Sak.max (floatLess m) a b) = place (Sak.maxN (floatLess m) zero vs)) := by
  have ho := (C86_floats_partial (w := w) (m := m)).1
  have key : ∀ x y : BitVec (w + 1), Num m x → Num m y → floatLess m x y = false → place y ≤ place x := by
    intro x y hx hy h
    by_contra hc
    have := (floatLess_iff x y hx hy).2 (by omega)
    rw [this] at h
    cases h
  cases vs with
  | nil => exact absurd rfl hne
  | cons v0 vs =>
    have h0 := hv v0 (by simp)
    have hvs : ∀ v ∈ vs, Num m v := fun v hm => hv v (by simp [hm])
    obtain ⟨h1, h2⟩ := foldl_least ho vs v0 h0 hvs
    obtain ⟨g1, g2⟩ := foldl_least (OrdOn.flip ho) vs v0 h0 hvs
    refine ⟨⟨h1, fun v hm => key _ _ (hv v hm) (hv _ h1) (h2 v hm)⟩, ⟨g1, fun v hm => key _ _ (hv _ g1) (hv v hm) (g2 v hm)⟩, ?_⟩
    intro a b hab
    injection hab with ha hb
    subst ha hb
    have hb := hv b (by simp)
    have i1 := floatLess_iff v0 b h0 hb
    have i2 := floatLess_iff b v0 hb h0
    simp only [Sak.min, Sak.max, Sak.minN, Sak.maxN, List.foldl_cons, List.foldl_nil]
    simp only [i1, i2]
    constructor <;> (split <;> split) <;> omega

theorem floatNeg_toNat {w : Nat} (x : BitVec (w + 1)) : mag (floatNeg x) = mag x ∧ (floatNeg x).msb = !x.msb := by
  have hb : ∀ i, (floatNeg x).getLsbD i = (x.getLsbD i ^^ decide (i = w)) := by
    intro i
    unfold floatNeg
    rw [BitVec.getLsbD_xor, BitVec.getLsbD_intMin]
    simp [eq_comm]
  constructor
  · unfold mag
    apply Nat.eq_of_testBit_eq
    intro i
    simp only [Nat.add_sub_cancel, Nat.testBit_mod_two_pow]
    have := hb i
    simp only [BitVec.getLsbD] at this
    rw [this]
    by_cases hi : i < w
    · have : i ≠ w := by omega
      simp [hi, this]
    · simp [hi]
  · rw [BitVec.msb_eq_getLsbD_last, BitVec.msb_eq_getLsbD_last]
    simp only [Nat.add_sub_cancel]
    rw [hb]
    simp

/-- **C86** (absolute value). For every floating-point number that is not NaN, `Abs` returns the number of the same size that is not negative; NaN is returned as it is. -/
theorem C86_abs {w m : Nat} (x : BitVec (w + 1)) :
    (Num m x → place (floatAbs m x) = (place x).natAbs ∧ Num m (floatAbs m x)) ∧ (¬ Num m x → floatAbs m x = x) := by
  have hz : isNaN m (0 : BitVec (w + 1)) = false := by simp [isNaN, mag]
  have hp0 : place (0 : BitVec (w + 1)) = 0 := by simp [place, mag]
  constructor
  · intro hx
    unfold floatAbs
    have hlt := floatLess_iff x 0 hx hz
    rw [hp0] at hlt
    obtain ⟨n1, n2⟩ := floatNeg_toNat x
    split
    · rename_i h
      have h := hlt.1 h
      refine ⟨?_, by unfold Num isNaN at hx ⊢; rw [n1]; exact hx⟩
      unfold place at h ⊢
      rw [n1, n2]
      cases hm : x.msb <;> simp [hm] at h ⊢
      omega
    · rename_i h
      have h : ¬ place x < 0 := fun hc => h (hlt.2 hc)
      exact ⟨by omega, hx⟩
  · intro hx
    have hx : isNaN m x = true := by unfold Num at hx; simpa using hx
    unfold floatAbs floatLess
    simp [hx]

/-- The bits of the `float64` 1 and of a `float64` NaN. -/
def one64 : BitVec 64 := 0x3FF0000000000000#64
/-- See `one64`. -/
def nan64 : BitVec 64 := 0x7FF8000000000001#64
/-- The bits of -2. -/
def minusTwo64 : BitVec 64 := 0xC000000000000000#64

/-- The format is that of Go: -2 < -0 = 0 < 1 < +Inf, the absolute value of -2 is 2. -/
example : floatLess 52 minusTwo64 0x8000000000000000#64 = true ∧ Eqv (floatLess 52) 0x8000000000000000#64 (0#64) ∧ floatLess 52 0#64 one64 = true ∧
    floatLess 52 one64 0x7FF0000000000000#64 = true ∧ floatAbs 52 minusTwo64 = 0x4000000000000000#64 ∧ Num 52 one64 ∧ ¬ Num 52 nan64 ∧
    Sak.minN (floatLess 52) 0 [one64, minusTwo64, 0] = minusTwo64 := by
  refine ⟨by decide, ⟨by decide, by decide⟩, by decide, by decide, by decide, by unfold Num; decide, by unfold Num; decide, by decide⟩

/-- **C86 is violated** for trees: with `NumberLess` on `float64`, NaN is equal to every number. Inserting it replaces another key: the item 1 is gone, and a lookup of 1 or of
-2 returns NaN. -/
theorem C86_violated_nan : (∀ x : BitVec 64, Eqv (floatLess 52) nan64 x) ∧
    replaceOrInsert (floatLess 52) nan64 [one64] = ([nan64], some one64) ∧
    BTree.get (floatLess 52) one64 [nan64] = some nan64 ∧ BTree.get (floatLess 52) minusTwo64 [nan64] = some nan64 ∧
    ¬ OrdOn (floatLess (w := 64) 52) (fun _ => True) := by
  have hn : isNaN 52 nan64 = true := by decide
  have he : ∀ x : BitVec 64, Eqv (floatLess 52) nan64 x := by
    intro x
    unfold Eqv floatLess
    simp [hn]
  refine ⟨he, by decide, by decide, by decide, ?_⟩
  intro h
  rcases h.cotrans minusTwo64 nan64 one64 trivial trivial trivial (by decide) with h | h
  · exact absurd h (by decide)
  · exact absurd h (by decide)

/-- **C86 is violated** for `Min` and `Max`, which are said to be versions of `math.Min` and `math.Max`: with NaN, the result depends on the order of the arguments, and NaN is
lost. -/
theorem C86_violated_min : Sak.min (floatLess 52) nan64 one64 = one64 ∧ Sak.min (floatLess 52) one64 nan64 = nan64 ∧
    Sak.max (floatLess 52) nan64 one64 = one64 ∧ Sak.max (floatLess 52) one64 nan64 = nan64 ∧
    Sak.minN (floatLess 52) 0 [one64, nan64] = one64 ∧ Sak.minN (floatLess 52) 0 [nan64, one64] = nan64 := by decide

/-! ## C87 -/

section
variable {T : Type}

theorem toPtr_spec (vs : List T) (mem : Mem T) : (toPtrSlice mem vs).1 = mem ++ vs ∧
    (toPtrSlice mem vs).2 = (List.range' mem.length vs.length).map some := by
  induction vs generalizing mem with
  | nil => simp [toPtrSlice]
  | cons v vs ih =>
    have := ih (mem ++ [v])
    simp only [toPtrSlice, new]
    rw [this.1, this.2]
    simp [List.range'_succ]

/-- **C87** (pointers). `ToPtrSlice` returns one pointer for each element, all different and different from every earlier one, each to a copy of its element; earlier cells are as before.
After a write through one of them the others still have their elements. -/
theorem C87_pointers (mem : Mem T) (vs : List T) :
    (toPtrSlice mem vs).2.length = vs.length ∧ (toPtrSlice mem vs).2.Nodup ∧
    (∀ (i : Nat) (h : i < vs.length), ∃ p, (toPtrSlice mem vs).2[i]? = some p ∧ load (toPtrSlice mem vs).1 p = some vs[i] ∧ load mem p = none ∧ p ≠ none) ∧
    (∀ a, a < mem.length → load (toPtrSlice mem vs).1 (some a) = load mem (some a)) ∧
    (∀ (i j : Nat) (p q : Ptr) (v : T), (toPtrSlice mem vs).2[i]? = some p → (toPtrSlice mem vs).2[j]? = some q →
      load (store (toPtrSlice mem vs).1 p v) q = if i = j then some v else vs[j]?) := by
  obtain ⟨h1, h2⟩ := toPtr_spec vs mem
  have hget : ∀ (i : Nat) (p : Ptr), (toPtrSlice mem vs).2[i]? = some p ↔ i < vs.length ∧ p = some (mem.length + i) := by
    intro i p
    rw [h2, List.getElem?_map]
    by_cases hi : i < vs.length
    · rw [List.getElem?_range' hi]
      simp [hi, eq_comm]
    · rw [List.getElem?_eq_none (by simp; omega)]
      simp [hi]
  refine ⟨by rw [h2]; simp, ?_, ?_, ?_, ?_⟩
  · rw [h2]
    exact (List.nodup_range').map_on (fun a _ b _ h => by injection h)
  · intro i hi
    refine ⟨some (mem.length + i), (hget _ _).2 ⟨hi, rfl⟩, ?_, ?_, by simp⟩
    · rw [h1]
      simp [load, List.getElem?_append_right, hi]
    · simp [load]
  · intro a ha
    rw [h1]
    simp [load, List.getElem?_append_left ha]
  · intro i j p q v hp hq
    obtain ⟨hi, rfl⟩ := (hget _ _).1 hp
    obtain ⟨hj, rfl⟩ := (hget _ _).1 hq
    rw [h1]
    simp only [load, store, List.getElem?_set]
    by_cases hij : i = j
    · subst hij
      simp
      omega
    · have : ¬ mem.length + i = mem.length + j := by omega
      simp [this, hij, List.getElem?_append_right]

/-- **C87** (inverse). `ToStructSlice` gives back the elements that were passed to `ToPtrSlice`, as long as nothing was written, and it panics exactly if a pointer is nil (or
dangling, which Go excludes). -/
theorem C87_structs (mem : Mem T) (vs : List T) (ps : List Ptr) :
    toStructSlice (toPtrSlice mem vs).1 (toPtrSlice mem vs).2 = some vs ∧
    (toStructSlice mem ps = none ↔ ∃ p ∈ ps, load mem p = none) ∧
    (∀ xs, toStructSlice mem ps = some xs → xs.length = ps.length ∧ ∀ i : Nat, (ps[i]?).bind (load mem) = xs[i]?) := by
  have hall : ∀ ps : List Ptr, (∃ xs, toStructSlice mem ps = some xs ∧ xs.length = ps.length ∧ (∀ i : Nat, (ps[i]?).bind (load mem) = xs[i]?) ∧
      ∀ p ∈ ps, load mem p ≠ none) ∨ (toStructSlice mem ps = none ∧ ∃ p ∈ ps, load mem p = none) := by
    intro ps
    induction ps with
    | nil => left; exact ⟨[], rfl, rfl, by simp, by simp⟩
    | cons p ps ih =>
      simp only [toStructSlice]
      cases hl : load mem p with
      | none => right; exact ⟨rfl, p, by simp, hl⟩
      | some v =>
        rcases ih with ⟨xs, e, hlen, hi, hn⟩ | ⟨e, q, hq, hln⟩
        · left
          rw [e]
          refine ⟨v :: xs, rfl, by simp [hlen], ?_, ?_⟩
          · intro i
            cases i with
            | zero => simp [hl]
            | succ i => simpa using hi i
          · intro q hq
            rcases List.mem_cons.1 hq with rfl | hq
            · rw [hl]; simp
            · exact hn q hq
        · right
          rw [e]
          exact ⟨rfl, q, by simp [hq], hln⟩
  refine ⟨?_, ?_, ?_⟩
  · obtain ⟨h1, h2⟩ := toPtr_spec vs mem
    rw [h1, h2]
    have : ∀ (vs : List T) (mem tail : List T), toStructSlice (mem ++ (vs ++ tail)) ((List.range' mem.length vs.length).map some) = some vs := by
      intro vs
      induction vs with
      | nil => intro mem tail; rfl
      | cons v vs ih =>
        intro mem tail
        simp only [List.length_cons, List.range'_succ, List.map_cons, toStructSlice]
        have := ih (mem ++ [v]) tail
        simp only [List.length_append, List.length_cons, List.length_nil, List.append_assoc, List.cons_append, List.nil_append] at this
        simp only [List.cons_append]
        rw [this]
        simp [load]
    have := this vs mem []
    simpa using this
  · rcases hall ps with ⟨xs, e, _, _, hn⟩ | ⟨e, h⟩
    · rw [e]
      constructor
      · intro h; cases h
      · rintro ⟨p, hp, hl⟩
        exact absurd hl (hn p hp)
    · rw [e]
      exact ⟨fun _ => h, fun _ => rfl⟩
  · intro xs hxs
    rcases hall ps with ⟨ys, e, hl, hi, _⟩ | ⟨e, h⟩
    · rw [e] at hxs
      injection hxs with hxs
      subst hxs
      exact ⟨hl, hi⟩
    · rw [e] at hxs
      cases hxs
end

section
variable {K T : Type} [DecidableEq K]

/-- The entries of a Go map: at most one for each key. -/
def IsMap (m : GoMap K T) : Prop := (m.map (·.1)).Nodup

theorem lookup_some {m : GoMap K T} (hm : IsMap m) (k : K) (v : T) : lookup m k = some v ↔ (k, v) ∈ m := by
  induction m with
  | nil => simp [lookup]
  | cons e m ih =>
    have hm' : IsMap m := (List.nodup_cons.1 hm).2
    have hne : e.1 ∉ m.map (·.1) := (List.nodup_cons.1 hm).1
    have ih := ih hm'
    unfold lookup at ih ⊢
    by_cases he : e.1 = k
    · subst he
      simp
      constructor
      · intro h
        left
        rw [← h]
      · rintro (h | h)
        · rw [← h]
        · exact absurd (List.mem_map.2 ⟨_, h, rfl⟩) hne
    · have hn : ¬ (k, v) = e := by intro h; apply he; rw [← h]
      simp [he, hn, ih]

theorem copy_aux (r c : GoMap K T) (hr : IsMap (c ++ r)) : r.foldl (fun c e => assign c e.1 e.2) c = c ++ r := by
  induction r generalizing c with
  | nil => simp
  | cons e r ih =>
    rw [List.foldl_cons]
    have hn : ¬ (c.any fun x => x.1 = e.1) = true := by
      intro h
      obtain ⟨x, hx, hxe⟩ := List.any_eq_true.1 h
      unfold IsMap at hr
      rw [List.map_append, List.nodup_append] at hr
      exact hr.2.2 x.1 (List.mem_map.2 ⟨x, hx, rfl⟩) e.1 (by simp) (by simpa using hxe)
    have ha : assign c e.1 e.2 = c ++ [e] := by unfold assign; rw [if_neg hn]
    rw [ha, ih _ (by simpa using hr)]
    simp

/-- **C87** (maps). Whatever the order in which the loops visit the entries of a map (three orders `r1`, `r2`, `r3` of the same entries): the copy of `MapCopy` has the same entries and
no others, `MapKeysToSlice` returns each key once, and `MapValuesToSlice` returns the value of each entry once. -/
theorem C87_maps (m r1 r2 r3 : GoMap K T) (hm : IsMap m) (h1 : r1.Perm m) (h2 : r2.Perm m) (h3 : r3.Perm m) :
    (IsMap (mapCopy r1) ∧ (mapCopy r1).length = m.length ∧ ∀ k, lookup (mapCopy r1) k = lookup m k) ∧
    ((mapKeys r2).Nodup ∧ ∀ k, k ∈ mapKeys r2 ↔ lookup m k ≠ none) ∧
    ((mapValues r3).Perm (m.map (·.2)) ∧ (mapValues r3).length = (mapKeys r2).length) := by
  have hr1 : IsMap r1 := (h1.map Prod.fst).nodup_iff.2 hm
  have hc : mapCopy r1 = r1 := by
    unfold mapCopy
    rw [copy_aux r1 [] (by simpa using hr1)]
    simp
  have hk : ∀ r : GoMap K T, mapKeys r = r.map (·.1) := by
    have : ∀ (r : GoMap K T) (s : List K), r.foldl (fun s e => s ++ [e.1]) s = s ++ r.map (·.1) := by
      intro r
      induction r with
      | nil => simp
      | cons e r ih => intro s; rw [List.foldl_cons, ih]; simp
    intro r
    unfold mapKeys
    rw [this]
    simp
  have hv : ∀ r : GoMap K T, mapValues r = r.map (·.2) := by
    have : ∀ (r : GoMap K T) (s : List T), r.foldl (fun s e => s ++ [e.2]) s = s ++ r.map (·.2) := by
      intro r
      induction r with
      | nil => simp
      | cons e r ih => intro s; rw [List.foldl_cons, ih]; simp
    intro r
    unfold mapValues
    rw [this]
    simp
  refine ⟨⟨by rw [hc]; exact hr1, by rw [hc]; exact h1.length_eq, ?_⟩, ⟨?_, ?_⟩, ?_, ?_⟩
  · intro k
    rw [hc]
    apply Option.ext
    intro v
    rw [lookup_some hr1, lookup_some hm, h1.mem_iff]
  · rw [hk]
    exact (h2.map Prod.fst).nodup_iff.2 hm
  · intro k
    rw [hk]
    have : lookup m k ≠ none ↔ ∃ v, lookup m k = some v := by
      cases lookup m k <;> simp
    rw [this]
    simp only [lookup_some hm, List.mem_map]
    constructor
    · rintro ⟨e, he, rfl⟩
      exact ⟨e.2, h2.mem_iff.1 he⟩
    · rintro ⟨v, hv⟩
      exact ⟨_, h2.mem_iff.2 hv, rfl⟩
  · rw [hv]
    exact h3.map _
  · rw [hv, hk]
    simp [h2.length_eq, h3.length_eq]

/-- The theorem applies: two entries, visited in two orders. -/
example : IsMap [((1 : Nat), "a"), (2, "b")] ∧ List.Perm [((2 : Nat), "b"), (1, "a")] [(1, "a"), (2, "b")] ∧
    mapKeys [((2 : Nat), "b"), (1, "a")] = [2, 1] ∧ lookup (mapCopy [((2 : Nat), "b"), (1, "a")]) 1 = some "a" := by
  refine ⟨by unfold IsMap; decide, List.Perm.swap .., by decide, by decide⟩
end

/-- **C87** (the rest). `Noescape` returns its argument, `Must` returns the item exactly if there is no error, and `toTopicPartitions` gives one entry per partition, in order and
with the topic. -/
theorem C87_rest {T : Type} (p : BitVec 64) (item : T) (err : Bool) (topic : Bytes) (ps : List Int) :
    noescape p = p ∧ (must item err = some item ↔ err = false) ∧ (must item err = none ↔ err = true) ∧
    (toTopicPartitions topic ps).length = ps.length ∧ ∀ (i : Nat) (t : Bytes) (q : Int), (toTopicPartitions topic ps)[i]? = some (t, q) ↔ t = topic ∧ ps[i]? = some q := by
  refine ⟨by simp [noescape], ?_, ?_, by simp [toTopicPartitions], ?_⟩
  · cases err <;> simp [must]
  · cases err <;> simp [must]
  · intro i t q
    simp only [toTopicPartitions, List.getElem?_map]
    cases ps[i]? <;> simp [eq_comm]

/-- Non-trivial cases of the statements about pointers: two elements behind one older cell. -/
example : toPtrSlice [9] [5, 6] = ([9, 5, 6], [some 1, some 2]) ∧ toStructSlice [9, 5, 6] [some 2, some 0] = some [6, 9] ∧
    toStructSlice [9, 5, 6] [some 2, none] = none ∧ toStructSlice (store [9, 5, 6] (some 1) 7) [some 1, some 2] = some [7, 6] := by decide

end Verif.Helpers
