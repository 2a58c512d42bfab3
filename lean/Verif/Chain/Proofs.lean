import Verif.Chain.Spec
import Verif.Eos.Proofs
/-
Proofs for C106.
-/
set_option linter.unusedSectionVars false
set_option linter.unusedSimpArgs false
set_option linter.unusedVariables false
namespace Verif.Chain
open Verif.Eos

/-! ### Maps -/

theorem get_put (m : Map) (tp : Nat) (d : Dll) (tp' : Nat) : (m.put tp d).get tp' = if tp' = tp then some d else m.get tp' := by
  unfold Map.put
  by_cases hs : (m.get tp).isSome = true
  · rw [if_pos hs]
    induction m with
    | nil => simp [Map.get] at hs
    | cons x m ih =>
      unfold Map.get at hs ih ⊢
      simp only [List.map_cons, List.find?_cons] at hs ih ⊢
      by_cases hx : x.1 = tp
      · simp only [hx, if_true]
        by_cases ht : tp' = tp
        · subst ht; simp
        · have ht' : ¬ tp = tp' := fun h => ht h.symm
          simp only [ht, ht', if_false, decide_false, hx]
          by_cases hm : (List.find? (fun x => decide (x.1 = tp)) m).isSome = true
          · have := ih (by simpa using hm)
            simpa [ht] using this
          · have hnone : ∀ y ∈ m, y.1 ≠ tp := by
              intro y hy hc
              apply hm
              rw [List.find?_isSome]
              exact ⟨y, hy, by simp [hc]⟩
            have : m.map (fun x => if x.1 = tp then (tp, d) else x) = m := by
              conv => rhs; rw [← List.map_id m]
              apply List.map_congr_left
              intro y hy
              simp [hnone y hy]
            rw [this]
      · simp only [hx, if_false, decide_false] at hs ⊢
        by_cases ht : x.1 = tp'
        · have : ¬ tp' = tp := fun h => hx (ht.trans h)
          simp [ht, this]
        · simp only [ht, decide_false]
          exact ih hs
  · rw [if_neg hs]
    unfold Map.get at hs ⊢
    simp only [Option.isSome_map, Bool.not_eq_true, Option.isSome_eq_false_iff, Option.isNone_iff_eq_none] at hs
    rw [List.find?_append]
    by_cases ht : tp' = tp
    · subst ht; simp [hs]
    · have ht' : ¬ tp = tp' := fun h => ht h.symm
      simp [ht, ht']

theorem get_del (m : Map) (tp tp' : Nat) : (m.del tp).get tp' = if tp' = tp then none else m.get tp' := by
  unfold Map.del Map.get
  induction m with
  | nil => simp
  | cons x m ih =>
    by_cases hx : x.1 = tp
    · have : List.filter (fun x => decide (x.1 ≠ tp)) (x :: m) = List.filter (fun x => decide (x.1 ≠ tp)) m := by simp [hx]
      rw [this, ih]
      split
      · rfl
      · rename_i h
        have : ¬ x.1 = tp' := fun h' => h (h'.symm.trans hx)
        simp [this]
    · have : List.filter (fun x => decide (x.1 ≠ tp)) (x :: m) = x :: List.filter (fun x => decide (x.1 ≠ tp)) m := by simp [hx]
      rw [this, List.find?_cons, List.find?_cons]
      by_cases ht : x.1 = tp'
      · have : ¬ tp' = tp := fun h => hx (ht.trans h)
        simp [ht, this]
      · simp only [ht, decide_false]
        exact ih

theorem mem_keys (m : Map) (tp : Nat) : tp ∈ m.keys ↔ (m.get tp).isSome = true := by
  unfold Map.keys Map.get
  rw [Option.isSome_map, List.find?_isSome, List.mem_map]
  constructor
  · rintro ⟨x, h, rfl⟩; exact ⟨x, h, by simp⟩
  · rintro ⟨x, h, h'⟩; exact ⟨x, h, by simpa using h'⟩

theorem keys_put (m : Map) (tp : Nat) (d : Dll) (h : m.keys.Nodup) : (m.put tp d).keys.Nodup := by
  unfold Map.put
  split
  · have : (m.map fun x => if x.1 = tp then (tp, d) else x).map Prod.fst = m.map Prod.fst := by
      rw [List.map_map]
      apply List.map_congr_left
      intro x _
      simp only [Function.comp]
      split
      · rename_i hx; exact hx.symm
      · rfl
    unfold Map.keys at h ⊢
    rw [this]; exact h
  · rename_i hs
    have hs' : tp ∉ m.keys := fun hc => hs ((mem_keys m tp).1 hc)
    unfold Map.keys at h hs' ⊢
    rw [List.map_append, List.nodup_append]
    refine ⟨h, by simp, ?_⟩
    intro a ha b hb
    simp only [List.map_cons, List.map_nil, List.mem_singleton] at hb
    rintro rfl
    exact hs' (hb ▸ ha)

theorem keys_del (m : Map) (tp : Nat) (h : m.keys.Nodup) : (m.del tp).keys.Nodup := by
  unfold Map.keys Map.del at *
  exact h.sublist (List.filter_sublist.map _)

/-! ### The ring of nodes -/

theorem build_range (k : Nat) :
    let b := (List.range k).foldl Build.link ⟨none, none, none, fun _ => none⟩
    (b.first = if k = 0 then none else some 0) ∧ (b.prev = if k = 0 then none else some (k - 1)) ∧
      (b.last = if k = 0 then none else some (k - 1)) ∧ ∀ i, i + 1 < k → b.next i = some (i + 1) := by
  induction k with
  | zero => simp
  | succ k ih =>
    simp only [List.range_succ, List.foldl_append, List.foldl_cons, List.foldl_nil] at ih ⊢
    generalize (List.range k).foldl Build.link ⟨none, none, none, fun _ => none⟩ = b at ih ⊢
    obtain ⟨h1, h2, h3, h4⟩ := ih
    by_cases hk : k = 0
    · subst hk
      simp only [if_true] at h1
      simp [Build.link, h1]
    · simp only [hk, if_false] at h1 h2 h3
      simp only [Build.link, h1, h2]
      refine ⟨by simp, by simp, by simp, ?_⟩
      intro i hi
      simp only [upd]
      by_cases e : i = k - 1
      · rw [if_pos e]; congr 1; omega
      · rw [if_neg e]; exact h4 i (by omega)

theorem ring_next {n : Nat} (hn : 0 < n) {p : Nat} (hp : p < n) : buildRing n p = some ((p + 1) % n) := by
  obtain ⟨h1, h2, h3, h4⟩ := build_range n
  have hn' : n ≠ 0 := by omega
  simp only [hn', if_false] at h1 h3
  unfold buildRing
  simp only [h3, h1, upd]
  split
  · rename_i e
    subst e
    rw [show n - 1 + 1 = n by omega, Nat.mod_self]
  · rename_i e
    rw [h4 p (by omega), Nat.mod_eq_of_lt (by omega)]

theorem loop_from {n : Nat} {next : Nat → Option Nat} (h : ∀ p, p < n → next p = some ((p + 1) % n)) {p : Nat} (hp : p < n) :
    ∀ m k, k + m = n → 0 < k → Loop next p (some ((p + k) % n)) ((List.range' k m).map fun i => (p + i) % n) := by
  intro m
  induction m with
  | zero =>
    intro k hk _
    have : (p + k) % n = p := by rw [show k = n by omega, Nat.add_mod_right, Nat.mod_eq_of_lt hp]
    rw [this]
    exact .stop
  | succ m ih =>
    intro k hk h0
    rw [List.range'_succ, List.map_cons]
    refine .go ?_ ?_
    · intro hc
      have h1 := Nat.mod_add_div (p + k) n
      rw [hc] at h1
      generalize (p + k) / n = x at h1
      have h2 : x = 0 ∨ x = 1 ∨ 2 ≤ x := by omega
      rcases h2 with h2 | h2 | h2
      · rw [h2] at h1; omega
      · rw [h2] at h1; omega
      · have := Nat.mul_le_mul_left n h2
        omega
    · have hlt : (p + k) % n < n := Nat.mod_lt _ (by omega)
      rw [h _ hlt, Nat.mod_add_mod, Nat.add_assoc]
      exact ih (k + 1) (by omega) (by omega)

theorem ring_range (n p : Nat) : ring n p = (List.range' 1 (n - 1)).map fun i => (p + i) % n := by
  unfold ring
  rw [List.range'_eq_map_range, List.map_map]
  apply List.map_congr_left
  intro k _
  simp only [Function.comp]
  congr 1; omega

theorem loop_ring {n : Nat} {next : Nat → Option Nat} (h : ∀ p, p < n → next p = some ((p + 1) % n)) {p : Nat} (hp : p < n) :
    Loop next p (next p) (ring n p) := by
  rw [h p hp, ring_range]
  exact loop_from h hp (n - 1) 1 (by omega) (by omega)

theorem search_loop {next : Nat → Option Nat} {f : Nat → Bool} {p : Nat} {i : Option Nat} {l : List Nat} (h : Loop next p i l) :
    ∀ k, l.length < k → search next f p k i = l.find? f := by
  induction h with
  | stop =>
    intro k hk
    obtain ⟨k, rfl⟩ : ∃ j, k = j + 1 := ⟨k - 1, by simp at hk; omega⟩
    simp [search]
  | go hne _ ih =>
    intro k hk
    simp only [List.length_cons] at hk
    obtain ⟨k, rfl⟩ : ∃ j, k = j + 1 := ⟨k - 1, by omega⟩
    simp only [search, hne, if_false, List.find?_cons]
    rw [ih k (by omega)]
    split <;> simp_all

theorem search_ring {n : Nat} {next : Nat → Option Nat} (h : ∀ p, p < n → next p = some ((p + 1) % n)) {p : Nat} (hp : p < n)
    (f : Nat → Bool) : search next f p n (next p) = (ring n p).find? f := by
  apply search_loop (loop_ring h hp)
  rw [ring_range]
  simp
  omega

/-! ### Walks -/

theorem Walk.frame {f : Obj → Option Nat} {h h' : Nat → Option Obj} {i : Option Nat} {l : List Ev} (w : Walk f h i l)
    (hf : ∀ e ∈ l, ∀ o, h e.id = some o → ∃ o', h' e.id = some o' ∧ o'.part = o.part ∧ o'.off = o.off ∧ f o' = f o) : Walk f h' i l := by
  induction w with
  | nil => exact .nil
  | cons h1 h2 h3 _ ih =>
    obtain ⟨o', h4, h5, h6, h7⟩ := hf _ (by simp) _ h1
    refine .cons h4 (h5.trans h2) (h6.trans h3) ?_
    rw [h7]
    exact ih fun e he => hf e (by simp [he])

theorem Walk.isSome {f : Obj → Option Nat} {h : Nat → Option Obj} {i : Option Nat} {l : List Ev} (w : Walk f h i l) :
    ∀ e ∈ l, (h e.id).isSome = true := by
  induction w with
  | nil => simp
  | cons h1 _ _ _ ih =>
    intro e he
    rcases List.mem_cons.1 he with rfl | he
    · rw [h1]; rfl
    · exact ih e he

theorem Walk.head {f : Obj → Option Nat} {h : Nat → Option Obj} {i : Option Nat} {l : List Ev} (w : Walk f h i l) : i = l.head?.map Ev.id := by
  cases w <;> rfl

theorem Walk.snoc {f : Obj → Option Nat} {h h' : Nat → Option Obj} {i : Option Nat} {l : List Ev} {e : Ev} {m : List Ev}
    (w : Walk f h i (l ++ [e]))
    (hl : ∀ d ∈ l, h' d.id = h d.id) (he : ∀ o, h e.id = some o → ∃ o', h' e.id = some o' ∧ o'.part = o.part ∧ o'.off = o.off ∧ Walk f h' (f o') m) :
    Walk f h' i (l ++ [e] ++ m) := by
  induction l generalizing i with
  | nil =>
    cases w with
    | cons h1 h2 h3 h4 =>
      obtain ⟨o', h5, h6, h7, h8⟩ := he _ h1
      exact .cons h5 (h6.trans h2) (h7.trans h3) h8
  | cons d l ih =>
    cases w with
    | cons h1 h2 h3 h4 =>
      refine .cons ((hl d (by simp)).trans h1) h2 h3 ?_
      exact ih h4 fun x hx => hl x (by simp [hx])

end Verif.Chain
