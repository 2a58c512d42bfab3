import Mathlib.Tactic.Common
import Mathlib.Data.List.Perm.Basic
import Verif.Sak.Model
import Verif.Record.Proofs
/-
Properties C42 (Pool), C43 (RunStatus), C44 (numeric helpers).
-/
namespace Verif.Sak

/-! ### C44 -/

/-- The full claim for `Abs`. -/
def AbsNonneg (w : Nat) : Prop := ∀ a : BitVec w, 0 ≤ (abs a).toInt

/-- C44 is violated: the absolute value of the smallest `int64` is negative. -/
theorem C44_violated : ¬ AbsNonneg 64 := by
  intro h
  have := h (BitVec.intMin 64)
  exact absurd this (by decide)

/-- C44, the part that holds for `Abs`: every other number of every width has the right absolute value.
Missing: the smallest number of each signed type. -/
theorem C44_abs_partial {w : Nat} (a : BitVec w) (h : a ≠ BitVec.intMin w) :
    (abs a).toInt = (a.toInt.natAbs : Int) ∧ 0 ≤ (abs a).toInt := by
  have hz : (0 : BitVec w).toInt = 0 := by simp
  have : (abs a).toInt = (a.toInt.natAbs : Int) := by
    unfold abs
    by_cases hn : a.slt 0 = true
    · rw [if_pos hn]
      have hlt : a.toInt < 0 := by rwa [BitVec.slt_iff_toInt_lt, hz] at hn
      rw [BitVec.toInt_neg_of_ne_intMin h]; omega
    · rw [if_neg hn]
      have hge : 0 ≤ a.toInt := by
        rw [BitVec.slt_iff_toInt_lt, hz] at hn; omega
      omega
  exact ⟨this, by rw [this]; omega⟩

example : (5 : BitVec 64) ≠ BitVec.intMin 64 ∧ abs (-5 : BitVec 64) = 5 := by decide

/-- The comparison of a number type without NaN: a strict total order. -/
structure Total {α : Type} (lt : α → α → Bool) : Prop where
  irrefl : ∀ a, lt a a = false
  trans : ∀ a b c, lt a b = true → lt b c = true → lt a c = true
  tri : ∀ a b, lt a b = true ∨ a = b ∨ lt b a = true

section
variable {α : Type} {lt : α → α → Bool}

theorem Total.cotrans (h : Total lt) {a b c : α} (hac : lt a b = false) (hcb : lt b c = false) : lt a c = false := by
  rcases h.tri a b with h1 | rfl | h1
  · rw [h1] at hac; cases hac
  · exact hcb
  · by_contra hc
    have := h.trans b a c h1 (by simpa using hc)
    rw [hcb] at this; cases this

/-- C44. `Min` and `Max` return one of their arguments and bound both. -/
theorem C44_min_max (h : Total lt) (a b : α) :
    (min lt a b = a ∨ min lt a b = b) ∧ lt a (min lt a b) = false ∧ lt b (min lt a b) = false ∧
    (max lt a b = a ∨ max lt a b = b) ∧ lt (max lt a b) a = false ∧ lt (max lt a b) b = false := by
  have has : ∀ x y, lt x y = true → lt y x = false := by
    intro x y hxy
    by_contra hc
    have := h.trans x y x hxy (by simpa using hc)
    rw [h.irrefl] at this; cases this
  unfold min max
  refine ⟨?_, ?_, ?_, ?_, ?_, ?_⟩ <;> split <;> simp_all [h.irrefl]

/-- C44. `MinN` and `MaxN` of a non-empty list return an element that bounds all others. -/
theorem C44_minN_maxN (h : Total lt) (zero : α) (vs : List α) (hne : vs ≠ []) :
    minN lt zero vs ∈ vs ∧ (∀ v ∈ vs, lt v (minN lt zero vs) = false) ∧
    maxN lt zero vs ∈ vs ∧ (∀ v ∈ vs, lt (maxN lt zero vs) v = false) := by
  have key : ∀ (lt : α → α → Bool), Total lt → ∀ (vs : List α) (v0 : α),
      (vs.foldl (fun m v => if lt v m then v else m) v0) ∈ v0 :: vs ∧
      ∀ v ∈ v0 :: vs, lt v (vs.foldl (fun m v => if lt v m then v else m) v0) = false := by
    intro lt h vs
    induction vs with
    | nil => intro v0; simp [h.irrefl]
    | cons v vs ih =>
      intro v0
      simp only [List.foldl_cons]
      obtain ⟨h1, h2⟩ := ih (if lt v v0 then v else v0)
      have hm := h2 (if lt v v0 then v else v0) (by simp)
      have hv0 : lt v0 (if lt v v0 then v else v0) = false ∧ lt v (if lt v v0 then v else v0) = false := by
        by_cases hc : lt v v0 = true
        · rw [if_pos hc]
          refine ⟨?_, h.irrefl v⟩
          by_contra hx
          have := h.trans v v0 v hc (by simpa using hx)
          rw [h.irrefl] at this; cases this
        · rw [if_neg hc]
          exact ⟨h.irrefl v0, by simpa using hc⟩
      refine ⟨?_, ?_⟩
      · rcases List.mem_cons.mp h1 with h1 | h1
        · rw [h1]
          split <;> simp
        · simp [h1]
      · intro x hx
        simp only [List.mem_cons] at hx
        rcases hx with rfl | rfl | hx
        · exact h.cotrans hv0.1 hm
        · exact h.cotrans hv0.2 hm
        · exact h2 x (by simp [hx])
  have hrev : Total (fun a b => lt b a) :=
    ⟨h.irrefl, fun a b c h1 h2 => h.trans c b a h2 h1, fun a b => by
      rcases h.tri a b with h1 | h1 | h1
      · exact .inr (.inr h1)
      · exact .inr (.inl h1)
      · exact .inl h1⟩
  cases vs with
  | nil => exact absurd rfl hne
  | cons v0 vs =>
    obtain ⟨h1, h2⟩ := key lt h vs v0
    obtain ⟨h3, h4⟩ := key _ hrev vs v0
    exact ⟨h1, h2, h3, h4⟩
end

/-- All signed and all unsigned machine integers satisfy the hypothesis. -/
example (w : Nat) : Total (fun a b : BitVec w => a.slt b) where
  irrefl a := by simp [Bool.eq_false_iff, BitVec.slt_iff_toInt_lt]
  trans a b c := by simp only [BitVec.slt_iff_toInt_lt]; omega
  tri a b := by
    simp only [BitVec.slt_iff_toInt_lt]
    rcases Int.lt_trichotomy a.toInt b.toInt with h | h | h
    · exact .inl h
    · exact .inr (.inl (BitVec.eq_of_toInt_eq h))
    · exact .inr (.inr h)
example (w : Nat) : Total (fun a b : BitVec w => a.ult b) where
  irrefl a := by simp [Bool.eq_false_iff, BitVec.ult_iff_lt]
  trans a b c := by simp only [BitVec.ult_iff_lt, BitVec.lt_def]; omega
  tri a b := by
    simp only [BitVec.ult_iff_lt, BitVec.lt_def]
    rcases Nat.lt_trichotomy a.toNat b.toNat with h | h | h
    · exact .inl h
    · exact .inr (.inl (BitVec.eq_of_toNat_eq h))
    · exact .inr (.inr h)
example : minN (fun a b : BitVec 8 => a.slt b) 0 [3, -2, 7] = -2 := by decide

/-! ### C42 -/

section
variable {S : Type}

/-- What users do with a pool: borrow, change the contents of an object they hold, give back an object
they hold (chosen by its position among the held ones). -/
inductive POp (S : Type)
  | borrow
  | write (i : Nat) (contents : S)
  | release (i : Nat)

/-- The pool together with the objects its users hold. -/
structure Usage (S : Type) where
  pool : Pool S
  held : List (Obj S) := []

/-- One step of well-behaved users; also returns the borrowed object. -/
def pstep (factory : S) (reset : S → S) (u : Usage S) : POp S → Usage S × Option (Obj S)
  | .borrow => let r := u.pool.borrow factory; ({ pool := r.1, held := u.held ++ [r.2] }, some r.2)
  | .write i c => match u.held[i]? with
    | none => (u, none)
    | some o => ({ u with held := u.held.set i { o with contents := c } }, none)
  | .release i => match u.held[i]? with
    | none => (u, none)
    | some o => ({ pool := (u.pool.release reset o).1, held := u.held.eraseIdx i }, none)

/-- Reachable usages of a pool of the given size. -/
inductive Reach (factory : S) (reset : S → S) (size : Nat) : Usage S → Prop
  | init : Reach factory reset size { pool := newPool S size }
  | step {u} (op : POp S) : Reach factory reset size u → Reach factory reset size (pstep factory reset u op).1

structure PInv (reset : S → S) (size : Nat) (u : Usage S) : Prop where
  cap : u.pool.cap = size
  len : u.pool.freelist.length ≤ size
  ids : ((u.held ++ u.pool.freelist).map (·.id)).Nodup
  fresh : ∀ o ∈ u.held ++ u.pool.freelist, o.id < u.pool.nextId
  isReset : ∀ o ∈ u.pool.freelist, ∃ c, o.contents = reset c

theorem reach_inv {factory : S} {reset : S → S} {size : Nat} {u : Usage S} (h : Reach factory reset size u) :
    PInv reset size u := by
  induction h with
  | init => constructor <;> simp [newPool]
  | @step u op hr ih =>
    cases op with
    | borrow =>
      simp only [pstep, Pool.borrow]
      cases hl : u.pool.freelist.getLast? with
      | none =>
        have hnil : u.pool.freelist = [] := List.getLast?_eq_none_iff.mp hl
        have hids := ih.ids
        have hfresh := ih.fresh
        simp only [hnil, List.append_nil] at hids hfresh
        constructor
        · exact ih.cap
        · exact ih.len
        · simp only [hnil, List.append_nil, List.map_append, List.map_cons, List.map_nil]
          rw [List.nodup_append]
          refine ⟨hids, by simp, ?_⟩
          intro a ha b hb
          simp only [List.mem_singleton] at hb
          obtain ⟨o, ho, rfl⟩ := List.mem_map.mp ha
          have := hfresh o ho
          omega
        · intro o ho
          simp only [hnil, List.append_nil, List.mem_append, List.mem_singleton] at ho
          rcases ho with ho | rfl
          · have := hfresh o ho; dsimp only; omega
          · dsimp only; omega
        · simp [hnil]
      | some o =>
        have hs : u.pool.freelist = u.pool.freelist.dropLast ++ [o] := by
          obtain ⟨ys, hys⟩ := List.getLast?_eq_some_iff.mp hl
          rw [hys, List.dropLast_concat]
        generalize hd : u.pool.freelist.dropLast = d at *
        have hperm : (u.held ++ [o] ++ d).Perm (u.held ++ u.pool.freelist) := by
          rw [hs, List.append_assoc]
          exact List.Perm.append_left _ List.perm_append_comm
        constructor
        · exact ih.cap
        · have := ih.len
          rw [hs, List.length_append] at this
          dsimp only
          omega
        · exact (hperm.map _).nodup_iff.mpr ih.ids
        · intro x hx
          exact ih.fresh x (hperm.subset hx)
        · intro x hx
          exact ih.isReset x (by rw [hs]; exact List.mem_append_left _ hx)
    | write i c =>
      simp only [pstep]
      cases hi : u.held[i]? with
      | none => exact ih
      | some o =>
        have hmap : (u.held.set i { o with contents := c }).map (·.id) = u.held.map (·.id) := by
          rw [List.map_set]
          apply List.ext_getElem?
          intro j
          rw [List.getElem?_set]
          by_cases hj : i = j
          · subst hj
            have hlt := (List.getElem?_eq_some_iff.mp hi).1
            have ho := (List.getElem?_eq_some_iff.mp hi).2
            simp [hlt, ho]
          · simp [hj]
        constructor
        · exact ih.cap
        · exact ih.len
        · dsimp only
          rw [List.map_append, hmap, ← List.map_append]
          exact ih.ids
        · intro x hx
          dsimp only at hx ⊢
          rcases List.mem_append.mp hx with hx | hx
          · rcases List.mem_or_eq_of_mem_set hx with hx | rfl
            · exact ih.fresh x (by simp [hx])
            · exact ih.fresh o (by simp [List.mem_of_getElem? hi])
          · exact ih.fresh x (by simp [hx])
        · exact ih.isReset
    | release i =>
      simp only [pstep]
      cases hi : u.held[i]? with
      | none => exact ih
      | some o =>
        have hlt := (List.getElem?_eq_some_iff.mp hi).1
        have ho := (List.getElem?_eq_some_iff.mp hi).2
        have hperm : (o :: u.held.eraseIdx i).Perm u.held := by
          rw [← ho]
          exact List.getElem_cons_eraseIdx_perm hlt
        simp only [Pool.release]
        split
        · rename_i hroom
          have hids : ((u.held.eraseIdx i ++ (u.pool.freelist ++ [{ o with contents := reset o.contents }])).map Obj.id).Perm
              ((u.held ++ u.pool.freelist).map Obj.id) := by
            have h1 : ((o :: u.held.eraseIdx i) ++ u.pool.freelist).Perm (u.held ++ u.pool.freelist) :=
              hperm.append_right _
            refine List.Perm.trans ?_ (h1.map _)
            simp only [List.map_append, List.map_cons, List.map_nil, List.cons_append]
            rw [← List.append_assoc]
            exact List.perm_append_singleton _ _
          constructor
          · exact ih.cap
          · dsimp only
            rw [List.length_append, List.length_singleton]
            have := ih.cap
            omega
          · exact hids.nodup_iff.mpr ih.ids
          · intro x hx
            have hx' : x.id ∈ (u.held ++ u.pool.freelist).map (·.id) := hids.subset (List.mem_map_of_mem hx)
            obtain ⟨y, hy, hye⟩ := List.mem_map.mp hx'
            rw [← hye]
            exact ih.fresh y hy
          · intro x hx
            rcases List.mem_append.mp hx with hx | hx
            · exact ih.isReset x hx
            · simp only [List.mem_singleton] at hx
              exact ⟨o.contents, by rw [hx]⟩
        · have hsub : (u.held.eraseIdx i ++ u.pool.freelist).Sublist (u.held ++ u.pool.freelist) :=
            (List.eraseIdx_sublist _ _).append_right _
          constructor
          · exact ih.cap
          · exact ih.len
          · exact ih.ids.sublist (hsub.map _)
          · exact fun x hx => ih.fresh x (hsub.subset hx)
          · exact ih.isReset

/-- C42. The pool never holds more than its capacity. -/
theorem C42_capacity {factory : S} {reset : S → S} {size : Nat} {u : Usage S} (h : Reach factory reset size u) :
    u.pool.freelist.length ≤ size := (reach_inv h).len

/-- C42. A borrowed object is not held by anybody else at that moment, and its contents are those of a
new object or the result of a reset. -/
theorem C42_borrow {factory : S} {reset : S → S} {size : Nat} {u : Usage S} (h : Reach factory reset size u)
    (o : Obj S) (ho : (pstep factory reset u .borrow).2 = some o) :
    (∀ x ∈ u.held, x.id ≠ o.id) ∧ (o.contents = factory ∨ ∃ c, o.contents = reset c) := by
  have hn := (reach_inv (Reach.step .borrow h)).ids
  simp only [pstep] at ho hn
  have ho' := Option.some.inj ho
  rw [ho'] at hn
  constructor
  · intro x hx he
    rw [List.append_assoc, List.map_append, List.nodup_append] at hn
    exact hn.2.2 x.id (List.mem_map_of_mem hx) o.id (by simp) he
  · rw [← ho']
    unfold Pool.borrow
    cases hl : u.pool.freelist.getLast? with
    | none => exact .inl rfl
    | some y => exact .inr ((reach_inv h).isReset y (List.mem_of_getLast? hl))

/-- A reachable usage in which an object was borrowed, changed, given back and borrowed again. -/
example : Reach (0 : Nat) (fun _ => 0) 1
    (([.borrow, .write 0 7, .borrow, .release 0, .borrow] : List (POp Nat)).foldl (fun u op => (pstep 0 (fun _ => 0) u op).1)
      { pool := newPool Nat 1 }) :=
  .step _ (.step _ (.step _ (.step _ (.step _ .init))))

end

/-! ### C43 -/

namespace Spec

/-- How a handle was made. -/
inductive Creation
  | root
  | fork (h : Nat)
  | value (h : Nat)
deriving DecidableEq

/-- The effect of a call on the list of creations (newest first). -/
def create (cs : List Creation) : ROp → List Creation
  | .new => .root :: cs
  | .fork h => if h < cs.length then .fork h :: cs else cs
  | .withValue h => if h < cs.length then .value h :: cs else cs
  | .halt _ => cs

/-- The creations described by a sequence of calls, newest first; the number of a handle is the number of
handles made before. -/
def creations (ops : List ROp) : List Creation := ops.foldl create []

/-- The handle whose cancellation a handle controls: itself, or for `WithValue` that of its receiver. -/
def scope : List Creation → Nat → Nat
  | [], i => i
  | c :: cs, i => if i = cs.length then (match c with | .value h => scope cs h | _ => i) else scope cs i

/-- `i` lies in the subtree of the scope `s`: it is `s` or derived from something that does. -/
def below : List Creation → Nat → Nat → Bool
  | [], _, _ => false
  | c :: cs, s, i =>
    if i = cs.length then (match c with
      | .root => s = i
      | .fork h => s = i || below cs s h
      | .value h => below cs s h)
    else below cs s i

/-- Handles halted so far: those that existed when `Halt` was called on them. -/
def halted (ops : List ROp) : List Nat :=
  (ops.foldl (fun (a : List ROp × List Nat) op => (a.1 ++ [op], match op with
    | .halt h => if h < (creations a.1).length then h :: a.2 else a.2
    | _ => a.2)) ([], [])).2

end Spec

theorem creations_snoc (ops : List ROp) (op : ROp) :
    Spec.creations (ops ++ [op]) = Spec.create (Spec.creations ops) op := by
  simp [Spec.creations]

theorem halted_snoc (ops : List ROp) (op : ROp) :
    Spec.halted (ops ++ [op]) = (match op with
      | .halt h => if h < (Spec.creations ops).length then h :: Spec.halted ops else Spec.halted ops
      | _ => Spec.halted ops) := by
  have h1 : ∀ ops : List ROp, (ops.foldl (fun (a : List ROp × List Nat) op => (a.1 ++ [op], match op with
    | .halt h => if h < (Spec.creations a.1).length then h :: a.2 else a.2
    | _ => a.2)) ([], [])).1 = ops := by
    intro ops
    induction ops using Record.snoc_induction with
    | h0 => rfl
    | hs l a ih => rw [List.foldl_append]; simp only [List.foldl_cons, List.foldl_nil, ih]
  simp only [Spec.halted, List.foldl_append, List.foldl_cons, List.foldl_nil, h1]

theorem err_iff (cancelled : List Nat) (c : Ctx) : c.err cancelled = true ↔ ∃ x ∈ cancelled, c.err [x] = true := by
  induction c with
  | background => simp [Ctx.err]
  | withCancel id p ih =>
    simp only [Ctx.err, Bool.or_eq_true, List.contains_eq_mem, decide_eq_true_eq, List.mem_singleton, ih]
    constructor
    · rintro (h | ⟨x, h1, h2⟩)
      · exact ⟨id, h, .inl rfl⟩
      · exact ⟨x, h1, .inr h2⟩
    · rintro ⟨x, h1, rfl | h2⟩
      · exact .inl h1
      · exact .inr ⟨x, h1, h2⟩
  | withValue p ih => simpa [Ctx.err] using ih

theorem scope_cons (c : Spec.Creation) (cs : List Spec.Creation) {i : Nat} (h : i < cs.length) :
    Spec.scope (c :: cs) i = Spec.scope cs i := by
  cases c <;> simp only [Spec.scope] <;> rw [if_neg (by omega)]

theorem below_cons (c : Spec.Creation) (cs : List Spec.Creation) (s : Nat) {i : Nat} (h : i < cs.length) :
    Spec.below (c :: cs) s i = Spec.below cs s i := by
  cases c <;> simp only [Spec.below] <;> rw [if_neg (by omega)]

/-- The state after a sequence of calls, in terms of the tree. -/
structure RInv (ops : List ROp) (w : World) : Prop where
  len : w.handles.length = (Spec.creations ops).length
  cancel : ∀ i r, w.handles[i]? = some r → r.cancel = Spec.scope (Spec.creations ops) i
  chain : ∀ i r, w.handles[i]? = some r → ∀ s, r.ctx.err [s] = Spec.below (Spec.creations ops) s i
  cancelled : ∀ c, c ∈ w.cancelled ↔ ∃ h ∈ Spec.halted ops, c = Spec.scope (Spec.creations ops) h
  halted : ∀ h ∈ Spec.halted ops, h < w.handles.length

/-- A new handle is added. -/
theorem RInv.extend {ops : List ROp} {w : World} (h : RInv ops w) (op : ROp) (c : Spec.Creation) (r : RunStatus)
    (h1 : Spec.creations (ops ++ [op]) = c :: Spec.creations ops) (h2 : Spec.halted (ops ++ [op]) = Spec.halted ops)
    (hc : r.cancel = Spec.scope (c :: Spec.creations ops) (Spec.creations ops).length)
    (hb : ∀ s, r.ctx.err [s] = Spec.below (c :: Spec.creations ops) s (Spec.creations ops).length) :
    RInv (ops ++ [op]) { w with handles := w.handles ++ [r] } := by
  have hl := h.len
  have hcase : ∀ (i : Nat) (r' : RunStatus), (w.handles ++ [r])[i]? = some r' →
      (i < (Spec.creations ops).length ∧ w.handles[i]? = some r') ∨ (i = (Spec.creations ops).length ∧ r' = r) := by
    intro i r' hi
    rw [List.getElem?_append] at hi
    split at hi
    · exact .inl ⟨by omega, hi⟩
    · rename_i hge
      have hlt := (List.getElem?_eq_some_iff.mp hi).1
      simp only [List.length_singleton] at hlt
      have hz : i - w.handles.length = 0 := by omega
      rw [hz] at hi
      simp only [List.getElem?_cons_zero, Option.some.injEq] at hi
      exact .inr ⟨by omega, hi.symm⟩
  constructor
  · rw [h1]; simp [hl]
  · intro i r' hi
    rw [h1]
    rcases hcase i r' hi with ⟨hlt, hi⟩ | ⟨rfl, rfl⟩
    · rw [scope_cons _ _ hlt]; exact h.cancel i r' hi
    · exact hc
  · intro i r' hi s
    rw [h1]
    rcases hcase i r' hi with ⟨hlt, hi⟩ | ⟨rfl, rfl⟩
    · rw [below_cons _ _ _ hlt]; exact h.chain i r' hi s
    · exact hb s
  · intro x
    rw [h2, h.cancelled, h1]
    constructor
    · rintro ⟨y, hy, rfl⟩
      exact ⟨y, hy, (scope_cons _ _ (by rw [← hl]; exact h.halted y hy)).symm⟩
    · rintro ⟨y, hy, rfl⟩
      exact ⟨y, hy, scope_cons _ _ (by rw [← hl]; exact h.halted y hy)⟩
  · intro y hy
    rw [h2] at hy
    have := h.halted y hy
    simp; omega

theorem rinv (ops : List ROp) : RInv ops (rrun ops) := by
  induction ops using Record.snoc_induction with
  | h0 => constructor <;> simp [rrun, Spec.creations, Spec.halted]
  | hs ops op ih =>
    have hrun : rrun (ops ++ [op]) = rexec (rrun ops) op := by simp [rrun]
    rw [hrun]
    generalize rrun ops = w at ih
    have hl := ih.len
    cases op with
    | new =>
      refine ih.extend .new .root _ (by rw [creations_snoc]; rfl) (by rw [halted_snoc]) ?_ ?_
      · simp [newRunStatus, Spec.scope, hl]
      · intro s
        simp [newRunStatus, Spec.below, Ctx.err, hl, eq_comm]
    | fork h =>
      simp only [rexec]
      by_cases hh : h < w.handles.length
      · have hg : w.handles[h]? = some w.handles[h] := List.getElem?_eq_getElem hh
        rw [hg]
        refine ih.extend (.fork h) (.fork h) _ (by rw [creations_snoc]; simp [Spec.create]; omega) (by rw [halted_snoc]) ?_ ?_
        · simp [RunStatus.fork, newRunStatus, Spec.scope, hl]
        · intro s
          simp [RunStatus.fork, newRunStatus, Spec.below, Ctx.err, hl, eq_comm, ih.chain h _ hg s]
      · rw [List.getElem?_eq_none (by omega)]
        have e1 : Spec.creations (ops ++ [.fork h]) = Spec.creations ops := by rw [creations_snoc]; simp [Spec.create]; omega
        have e2 : Spec.halted (ops ++ [.fork h]) = Spec.halted ops := by rw [halted_snoc]
        constructor
        · rw [e1]; exact ih.len
        · rw [e1]; exact ih.cancel
        · rw [e1]; exact ih.chain
        · rw [e1, e2]; exact ih.cancelled
        · rw [e2]; exact ih.halted
    | withValue h =>
      simp only [rexec]
      by_cases hh : h < w.handles.length
      · have hg : w.handles[h]? = some w.handles[h] := List.getElem?_eq_getElem hh
        rw [hg]
        refine ih.extend (.withValue h) (.value h) _ (by rw [creations_snoc]; simp [Spec.create]; omega) (by rw [halted_snoc]) ?_ ?_
        · simp [RunStatus.withValue, Spec.scope, ih.cancel h _ hg]
        · intro s
          simp [RunStatus.withValue, Spec.below, Ctx.err, ih.chain h _ hg s]
      · rw [List.getElem?_eq_none (by omega)]
        have e1 : Spec.creations (ops ++ [.withValue h]) = Spec.creations ops := by rw [creations_snoc]; simp [Spec.create]; omega
        have e2 : Spec.halted (ops ++ [.withValue h]) = Spec.halted ops := by rw [halted_snoc]
        constructor
        · rw [e1]; exact ih.len
        · rw [e1]; exact ih.cancel
        · rw [e1]; exact ih.chain
        · rw [e1, e2]; exact ih.cancelled
        · rw [e2]; exact ih.halted
    | halt h =>
      have e1 : Spec.creations (ops ++ [.halt h]) = Spec.creations ops := by rw [creations_snoc]; rfl
      simp only [rexec]
      by_cases hh : h < w.handles.length
      · have hg : w.handles[h]? = some w.handles[h] := List.getElem?_eq_getElem hh
        rw [hg]
        have e2 : Spec.halted (ops ++ [.halt h]) = h :: Spec.halted ops := by
          rw [halted_snoc]; simp; omega
        constructor
        · rw [e1]; exact ih.len
        · rw [e1]; exact ih.cancel
        · rw [e1]; exact ih.chain
        · intro c
          rw [e1, e2]
          simp only [List.mem_cons, ih.cancelled, ih.cancel h _ hg]
          constructor
          · rintro (rfl | ⟨y, hy, rfl⟩)
            · exact ⟨h, .inl rfl, rfl⟩
            · exact ⟨y, .inr hy, rfl⟩
          · rintro ⟨y, rfl | hy, rfl⟩
            · exact .inl rfl
            · exact .inr ⟨y, hy, rfl⟩
        · intro y hy
          rw [e2] at hy
          rcases List.mem_cons.mp hy with rfl | hy
          · exact hh
          · exact ih.halted y hy
      · rw [List.getElem?_eq_none (by omega)]
        have e2 : Spec.halted (ops ++ [.halt h]) = Spec.halted ops := by rw [halted_snoc]; simp; omega
        constructor
        · rw [e1]; exact ih.len
        · rw [e1]; exact ih.cancel
        · rw [e1]; exact ih.chain
        · rw [e1, e2]; exact ih.cancelled
        · rw [e2]; exact ih.halted

/-- C43. After any sequence of calls, a `RunStatus` is stopped exactly if it lies in the subtree of
something on which `Halt` was called; `WithValue` shares the scope of its receiver. -/
theorem C43_stopped_iff (ops : List ROp) (i : Nat) (r : RunStatus) (hi : (rrun ops).handles[i]? = some r) :
    r.running (rrun ops) = false ↔
      ∃ h ∈ Spec.halted ops, Spec.below (Spec.creations ops) (Spec.scope (Spec.creations ops) h) i = true := by
  have hv := rinv ops
  unfold RunStatus.running
  rw [Bool.not_eq_false', err_iff]
  constructor
  · rintro ⟨c, hc, he⟩
    obtain ⟨h, hh, rfl⟩ := (hv.cancelled c).mp hc
    exact ⟨h, hh, by rw [← hv.chain i r hi]; exact he⟩
  · rintro ⟨h, hh, he⟩
    exact ⟨_, (hv.cancelled _).mpr ⟨h, hh, rfl⟩, by rw [hv.chain i r hi]; exact he⟩

theorem handles_prefix (ops more : List ROp) : (rrun ops).handles <+: (rrun (ops ++ more)).handles := by
  induction more using Record.snoc_induction with
  | h0 => simp
  | hs l a ih =>
    have : rrun (ops ++ (l ++ [a])) = rexec (rrun (ops ++ l)) a := by simp [rrun]
    rw [this]
    refine ih.trans ?_
    cases a <;> simp only [rexec] <;> (try split) <;> simp

theorem cancelled_subset (ops more : List ROp) : (rrun ops).cancelled ⊆ (rrun (ops ++ more)).cancelled := by
  induction more using Record.snoc_induction with
  | h0 => simp
  | hs l a ih =>
    have : rrun (ops ++ (l ++ [a])) = rexec (rrun (ops ++ l)) a := by simp [rrun]
    rw [this]
    refine List.Subset.trans ih ?_
    cases a <;> simp only [rexec] <;> (try split) <;> simp

/-- C43. Halting is permanent: no later call makes a stopped `RunStatus` run again. -/
theorem C43_permanent (ops more : List ROp) (i : Nat) (r : RunStatus) (hi : (rrun ops).handles[i]? = some r)
    (hs : r.running (rrun ops) = false) :
    (rrun (ops ++ more)).handles[i]? = some r ∧ r.running (rrun (ops ++ more)) = false := by
  constructor
  · obtain ⟨t, ht⟩ := handles_prefix ops more
    rw [← ht, List.getElem?_append_left (List.getElem?_eq_some_iff.mp hi).1]
    exact hi
  · unfold RunStatus.running at *
    rw [Bool.not_eq_false', err_iff] at *
    obtain ⟨c, hc, he⟩ := hs
    exact ⟨c, cancelled_subset ops more hc, he⟩

theorem below_ge : ∀ (cs : List Spec.Creation) (s i : Nat), cs.length ≤ s → Spec.below cs s i = false
  | [], s, i, _ => rfl
  | c :: cs, s, i, h => by
    simp only [List.length_cons] at h
    by_cases hi : i = cs.length
    · subst hi
      cases c with
      | root => simp [Spec.below]; omega
      | fork h' => simp [Spec.below, below_ge cs s h' (by omega)]; omega
      | value h' => simp [Spec.below, below_ge cs s h' (by omega)]
    · have : Spec.below (c :: cs) s i = Spec.below cs s i := by
        cases c <;> simp only [Spec.below] <;> rw [if_neg hi]
      rw [this]
      exact below_ge cs s i (by omega)

/-- C43. Halting a fork does not stop anything that existed before the fork, in particular not its
parent. -/
theorem C43_fork_isolated (ops : List ROp) (h i : Nat) (r : RunStatus) (hh : h < (Spec.creations ops).length)
    (hi : (rrun ops).handles[i]? = some r) (hr : r.running (rrun ops) = true) :
    r.running (rrun (ops ++ [.fork h, .halt (Spec.creations ops).length])) = true := by
  have e1 : Spec.creations (ops ++ [.fork h]) = .fork h :: Spec.creations ops := by
    rw [creations_snoc]; simp [Spec.create]; omega
  have e2 : Spec.creations (ops ++ [.fork h, .halt (Spec.creations ops).length]) = .fork h :: Spec.creations ops := by
    rw [show ops ++ [.fork h, .halt (Spec.creations ops).length] = (ops ++ [.fork h]) ++ [.halt (Spec.creations ops).length] by simp,
      creations_snoc, e1]
    rfl
  have e3 : Spec.halted (ops ++ [.fork h, .halt (Spec.creations ops).length]) = (Spec.creations ops).length :: Spec.halted ops := by
    rw [show ops ++ [.fork h, .halt (Spec.creations ops).length] = (ops ++ [.fork h]) ++ [.halt (Spec.creations ops).length] by simp,
      halted_snoc, halted_snoc, e1]
    simp
  have hlen := (rinv ops).len
  have hlt : i < (Spec.creations ops).length := by rw [← hlen]; exact (List.getElem?_eq_some_iff.mp hi).1
  have hi' : (rrun (ops ++ [.fork h, .halt (Spec.creations ops).length])).handles[i]? = some r := by
    obtain ⟨t, ht⟩ := handles_prefix ops [.fork h, .halt (Spec.creations ops).length]
    rw [← ht, List.getElem?_append_left (List.getElem?_eq_some_iff.mp hi).1]
    exact hi
  by_contra hc
  obtain ⟨y, hy, hb⟩ := (C43_stopped_iff _ i r hi').mp (by simpa using hc)
  rw [e2, below_cons _ _ _ hlt] at hb
  rw [e3] at hy
  rcases List.mem_cons.mp hy with rfl | hy
  · have : Spec.scope (.fork h :: Spec.creations ops) (Spec.creations ops).length = (Spec.creations ops).length := by
      simp [Spec.scope]
    rw [this, below_ge _ _ _ (Nat.le_refl _)] at hb
    cases hb
  · rw [scope_cons _ _ (by rw [← hlen]; exact (rinv ops).halted y hy)] at hb
    have := (C43_stopped_iff ops i r hi).mpr ⟨y, hy, hb⟩
    rw [hr] at this
    cases this

/-- A tree: 0 is a root, 1 a fork of it, 2 shares the scope of 1, 3 is a fork of 2. Halting 2 stops 1, 2
and 3 but not 0. -/
example : (rrun [.new, .fork 0, .withValue 1, .fork 2, .halt 2]).handles.map
    (RunStatus.running (rrun [.new, .fork 0, .withValue 1, .fork 2, .halt 2])) = [true, false, false, false] := by
  decide

end Verif.Sak
