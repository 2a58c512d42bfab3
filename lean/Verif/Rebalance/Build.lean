import Mathlib.Tactic.Common
import Mathlib.Data.List.Nodup
import Mathlib.Data.List.Perm.Subperm
import Verif.Rebalance.Model
import Verif.BTree.Proofs
/-
The group state built by `newGroupState` described in terms of what the members reported.
-/
set_option linter.unusedSectionVars false
set_option linter.unusedSimpArgs false
namespace Verif.Rebalance

open Verif.BTree

/-! ### Folds, sets, orders -/

theorem foldl_pre {σ α : Type} {f : σ → α → σ} (P : List α → σ → Prop) (l : List α) (s : σ) (h0 : P [] s)
    (hs : ∀ pre x suf s, l = pre ++ x :: suf → P pre s → P (pre ++ [x]) (f s x)) : P l (l.foldl f s) := by
  suffices H : ∀ suf pre s, l = pre ++ suf → P pre s → P l (suf.foldl f s) from H l [] s rfl h0
  intro suf
  induction suf with
  | nil => intro pre s hl hp; simp at hl; subst hl; exact hp
  | cons x suf ih =>
    intro pre s hl hp
    exact ih (pre ++ [x]) (f s x) (by simp [hl]) (hs pre x suf s hl hp)

theorem foldl_inv {σ α : Type} {f : σ → α → σ} (P : σ → Prop) (l : List α) (s : σ) (h0 : P s)
    (hs : ∀ x s, x ∈ l → P s → P (f s x)) : P (l.foldl f s) := by
  refine foldl_pre (fun _ s => P s) l s h0 ?_
  intro pre x suf s hl hp
  exact hs x s (by simp [hl]) hp

@[simp] theorem mem_insP {p q : Int} {l : List Int} : q ∈ insP p l ↔ q = p ∨ q ∈ l := by
  unfold insP
  split
  · constructor
    · exact .inr
    · rintro (rfl | h) <;> assumption
  · simp

@[simp] theorem mem_delP {p q : Int} {l : List Int} : q ∈ delP p l ↔ q ∈ l ∧ q ≠ p := by
  simp [delP]

theorem nodup_insP {p : Int} {l : List Int} (h : l.Nodup) : (insP p l).Nodup := by
  unfold insP; split
  · exact h
  · rename_i hn; exact List.nodup_cons.2 ⟨hn, h⟩

theorem nodup_delP {p : Int} {l : List Int} (h : l.Nodup) : (delP p l).Nodup := h.filter _

theorem insP_of_mem {p : Int} {l : List Int} (h : p ∈ l) : insP p l = l := by simp [insP, h]

theorem delP_of_not_mem {p : Int} {l : List Int} (h : p ∉ l) : delP p l = l := by
  unfold delP
  rw [List.filter_eq_self]
  intro q hq
  simp only [ne_eq, decide_eq_true_eq]
  rintro rfl; exact h hq

theorem insP_ne_nil (p : Int) (l : List Int) : insP p l ≠ [] := by
  unfold insP; split
  · rename_i h; rintro rfl; simp at h
  · simp

@[simp] theorem updM_same (f : Nat → M) (i : Nat) (g : M → M) : updM f i g i = g (f i) := by simp [updM]

theorem updM_ne (f : Nat → M) {i j : Nat} (g : M → M) (h : j ≠ i) : updM f i g j = f j := by simp [updM, h]

theorem activeLess_iff (mem : Nat → M) (a b : Nat) : activeLess mem a b = true ↔
    (mem a).pending < (mem b).pending ∨ ((mem a).pending = (mem b).pending ∧
      ((mem a).donatable.length + (mem a).donating.length
          < (mem b).donatable.length + (mem b).donating.length ∨
        ((mem a).donatable.length + (mem a).donating.length
          = (mem b).donatable.length + (mem b).donating.length ∧ a < b))) := by
  unfold activeLess
  split
  · rw [decide_eq_true_eq]; omega
  · split <;> (rw [decide_eq_true_eq]; omega)

theorem activeLess_ord (mem : Nat → M) : OrdOn (activeLess mem) (fun _ => True) where
  irrefl := by
    intro a _
    rw [Bool.eq_false_iff, ne_eq, activeLess_iff]; omega
  trans := by
    intro a b c _ _ _
    simp only [activeLess_iff]; omega
  cotrans := by
    intro a b c _ _ _
    simp only [activeLess_iff]; omega

theorem activeLess_eqv (mem : Nat → M) {a b : Nat} : Eqv (activeLess mem) a b ↔ a = b := by
  unfold Eqv
  rw [Bool.eq_false_iff, Bool.eq_false_iff, ne_eq, ne_eq, activeLess_iff, activeLess_iff]
  constructor
  · omega
  · rintro rfl; omega

theorem inactiveLess_iff (mem : Nat → M) (a b : Nat) : inactiveLess mem a b = true ↔
    (mem a).md.leftAt < (mem b).md.leftAt ∨ ((mem a).md.leftAt = (mem b).md.leftAt ∧ a < b) := by
  unfold inactiveLess
  split <;> (rw [decide_eq_true_eq]; omega)

theorem inactiveLess_ord (mem : Nat → M) : OrdOn (inactiveLess mem) (fun _ => True) where
  irrefl := by
    intro a _
    rw [Bool.eq_false_iff, ne_eq, inactiveLess_iff]; omega
  trans := by
    intro a b c _ _ _
    simp only [inactiveLess_iff]; omega
  cotrans := by
    intro a b c _ _ _
    simp only [inactiveLess_iff]; omega

theorem inactiveLess_eqv (mem : Nat → M) {a b : Nat} : Eqv (inactiveLess mem) a b ↔ a = b := by
  unfold Eqv
  rw [Bool.eq_false_iff, Bool.eq_false_iff, ne_eq, ne_eq, inactiveLess_iff, inactiveLess_iff]
  constructor
  · omega
  · rintro rfl; omega

theorem nodup_of_sorted {mem : Nat → M} {l : List Nat} (h : Sorted (activeLess mem) l) : l.Nodup := by
  refine List.Pairwise.imp ?_ h
  intro a b hab hne
  subst hne
  rw [(activeLess_ord mem).irrefl a trivial] at hab
  exact Bool.noConfusion hab

/-- Taking a member out of the tree, changing its struct and putting it back. -/
theorem reinsert {mem mem' : Nat → M} {l : List Nat} {r : Nat} (hs : Sorted (activeLess mem) l)
    (hr : r ∈ l) (hm : ∀ j, j ≠ r → mem' j = mem j) :
    Sorted (activeLess mem') (replaceOrInsert (activeLess mem') r (delete (activeLess mem) r l).1).1 ∧
    ∀ i, i ∈ (replaceOrInsert (activeLess mem') r (delete (activeLess mem) r l).1).1 ↔ i ∈ l := by
  have hd : ∀ i, i ∈ (delete (activeLess mem) r l).1 ↔ i ∈ l ∧ i ≠ r := by
    intro i
    rw [mem_delete (activeLess_ord mem) trivial (fun _ _ => trivial) hs, activeLess_eqv]
    constructor
    · rintro ⟨h1, h2⟩; exact ⟨h1, fun h => h2 h.symm⟩
    · rintro ⟨h1, h2⟩; exact ⟨h1, fun h => h2 h.symm⟩
  have hsd : Sorted (activeLess mem') (delete (activeLess mem) r l).1 := by
    refine List.Pairwise.imp_of_mem ?_ (sorted_delete (less := activeLess mem) r hs)
    intro a b ha hb hab
    have h1 := hm a ((hd a).1 ha).2
    have h2 := hm b ((hd b).1 hb).2
    simpa [activeLess, h1, h2] using hab
  refine ⟨sorted_replaceOrInsert (activeLess_ord mem') trivial (fun _ _ => trivial) hsd, ?_⟩
  intro i
  rw [mem_replaceOrInsert (activeLess_ord mem') trivial (fun _ _ => trivial) hsd, activeLess_eqv, hd]
  constructor
  · rintro (rfl | ⟨⟨h, _⟩, _⟩) <;> assumption
  · intro h
    by_cases e : i = r
    · exact .inl e
    · exact .inr ⟨⟨h, e⟩, fun h => e h.symm⟩

/-! ### What a member reports -/

/-- The metadata a member ends up with (`streams/group_state.go:103,165`). -/
def Input.md (x : Input) : Meta :=
  match x.user with
  | .absent => M.fresh.md
  | .bad m => m
  | .ok m => m

/-- The partitions that count as being prepared by the member, or ready there. -/
def Input.moving (x : Input) : List TP :=
  match x.user with
  | .ok m => if m.status = activeMember then m.preparing ++ m.ready else []
  | _ => []

/-- The partitions that count as ready at the member. -/
def Input.readyTPs (x : Input) : List TP :=
  match x.user with
  | .ok m => if m.status = activeMember then m.ready else []
  | _ => []

/-- The partitions the member is told to forget (`streams/group_state.go:183-184`). -/
def Input.forget (x : Input) : List TP :=
  match x.user with
  | .ok m => if m.status = activeMember then [] else m.preparing ++ m.ready
  | _ => []

/-- The first member that reports to own the partition. -/
def ownerOf (ins : List Input) (topic : Bytes) (p : Int) : Option Nat :=
  (ins.find? fun x => decide (p ∈ x.ownedOf topic)).map Input.id

theorem readyTPs_sub_moving {x : Input} {tp : TP} (h : tp ∈ x.readyTPs) : tp ∈ x.moving := by
  unfold Input.readyTPs at h; unfold Input.moving
  split at h
  · split at h
    · simp_all
    · simp at h
  · simp at h

/-- The group state after the members in `done` were added. -/
structure Built (gs : GS) (done : List Input) : Prop where
  ids : gs.ids = done.map Input.id
  asg : ∀ p i, p ∈ (gs.mem i).asg ↔ gs.assigned p = some i
  don : ∀ i, (gs.mem i).donatable = (gs.mem i).asg
  dong : ∀ i, (gs.mem i).donating = []
  nodup : ∀ i, (gs.mem i).asg.Nodup
  owner : ∀ p, gs.assigned p = ownerOf done gs.topic p
  un : ∀ p, p ∈ gs.unassigned ↔ (0 ≤ p ∧ p < gs.count) ∧ gs.assigned p = none
  unnodup : gs.unassigned.Nodup
  absent : ∀ i, i ∉ gs.ids → gs.mem i = M.fresh
  md : ∀ x ∈ done, (gs.mem x.id).md = x.md
  instr : ∀ x ∈ done, (gs.mem x.id).instr = ⟨[], x.forget⟩
  ready : ∀ tp i, (tp, i) ∈ gs.ready → ∃ x ∈ done, x.id = i ∧ tp ∈ x.readyTPs
  readyall : ∀ x ∈ done, ∀ tp ∈ x.readyTPs, ∃ i, (tp, i) ∈ gs.ready
  recv : ∀ p, p ∈ gs.inReceivership ↔ ∃ x ∈ done, ∃ tp ∈ x.moving, tp.part = p
  trees : gs.active = [] ∧ gs.inactive = [] ∧ gs.inTransition = []

theorem built_empty (count : Nat) (topic : Bytes) : Built (emptyState count topic) [] where
  ids := rfl
  asg := by simp [emptyState, M.fresh]
  don := by simp [emptyState, M.fresh]
  dong := by simp [emptyState, M.fresh]
  nodup := by simp [emptyState, M.fresh]
  owner := by simp [emptyState, ownerOf]
  un := by
    intro p
    simp only [emptyState, List.mem_map, List.mem_range, and_true]
    constructor
    · rintro ⟨n, hn, rfl⟩
      simp only [Int.ofNat_eq_natCast]; omega
    · rintro ⟨h1, h2⟩
      exact ⟨p.toNat, by omega, by simp only [Int.ofNat_eq_natCast]; omega⟩
  unnodup := by
    refine List.Nodup.map ?_ List.nodup_range
    intro a b h; exact Int.ofNat.inj h
  absent := by simp [emptyState]
  md := by simp
  instr := by simp
  ready := by simp [emptyState]
  readyall := by simp
  recv := by simp [emptyState]
  trees := by simp [emptyState]

theorem mem_fold_insP {l : List TP} {r : List Int} {p : Int} :
    p ∈ l.foldl (fun r tp => insP tp.part r) r ↔ p ∈ r ∨ ∃ tp ∈ l, tp.part = p := by
  induction l generalizing r with
  | nil => simp
  | cons a l ih =>
    rw [List.foldl_cons, ih]
    simp only [mem_insP, List.mem_cons]
    constructor
    · rintro ((rfl | h) | ⟨tp, h, rfl⟩)
      · exact .inr ⟨a, .inl rfl, rfl⟩
      · exact .inl h
      · exact .inr ⟨tp, .inr h, rfl⟩
    · rintro (h | ⟨tp, rfl | h, rfl⟩)
      · exact .inl (.inr h)
      · exact .inl (.inl rfl)
      · exact .inr ⟨tp, h, rfl⟩

theorem mem_putKV {K : Type} [DecidableEq K] {k k' : K} {v v' : Nat} {l : List (K × Nat)} :
    (k', v') ∈ putKV k v l ↔ (k' = k ∧ v' = v) ∨ ((k', v') ∈ l ∧ k' ≠ k) := by
  simp [putKV]

theorem mem_fold_putKV_of {l : List TP} {r : List (TP × Nat)} {i : Nat} {tp : TP} {j : Nat}
    (h : (tp, j) ∈ l.foldl (fun r tp => putKV tp i r) r) : (tp, j) ∈ r ∨ (j = i ∧ tp ∈ l) := by
  induction l generalizing r with
  | nil => exact .inl h
  | cons a l ih =>
    rw [List.foldl_cons] at h
    rcases ih h with h | ⟨h1, h2⟩
    · rcases mem_putKV.1 h with ⟨rfl, rfl⟩ | ⟨h, _⟩
      · exact .inr ⟨rfl, by simp⟩
      · exact .inl h
    · exact .inr ⟨h1, by simp [h2]⟩

theorem fold_putKV_keeps {l : List TP} {r : List (TP × Nat)} {i : Nat} {tp : TP}
    (h : (∃ j, (tp, j) ∈ r) ∨ tp ∈ l) : ∃ j, (tp, j) ∈ l.foldl (fun r tp => putKV tp i r) r := by
  induction l generalizing r with
  | nil => rcases h with h | h; exact h; simp at h
  | cons a l ih =>
    rw [List.foldl_cons]
    apply ih
    by_cases e : tp = a
    · exact .inl ⟨i, mem_putKV.2 (.inl ⟨e, rfl⟩)⟩
    · rcases h with ⟨j, h⟩ | h
      · exact .inl ⟨j, mem_putKV.2 (.inr ⟨h, e⟩)⟩
      · simp [e] at h; exact .inr h

/-- What `initReceivership` leaves alone and what it sets. -/
theorem initReceivership_spec (gs : GS) (x : Input) (hfresh : gs.mem x.id = M.fresh) :
    let gs' := initReceivership gs x
    gs'.ids = gs.ids ∧ gs'.unassigned = gs.unassigned ∧ gs'.assigned = gs.assigned ∧ gs'.active = gs.active ∧
    gs'.inactive = gs.inactive ∧ gs'.inTransition = gs.inTransition ∧ gs'.count = gs.count ∧
    gs'.topic = gs.topic ∧ (∀ i, i ≠ x.id → gs'.mem i = gs.mem i) ∧
    gs'.mem x.id = { M.fresh with md := x.md, instr := ⟨[], x.forget⟩ } ∧
    (∀ tp j, (tp, j) ∈ gs'.ready → (tp, j) ∈ gs.ready ∨ (j = x.id ∧ tp ∈ x.readyTPs)) ∧
    (∀ tp, ((∃ j, (tp, j) ∈ gs.ready) ∨ tp ∈ x.readyTPs) → ∃ j, (tp, j) ∈ gs'.ready) ∧
    (∀ p, p ∈ gs'.inReceivership ↔ p ∈ gs.inReceivership ∨ ∃ tp ∈ x.moving, tp.part = p) := by
  intro gs'
  show _
  simp only [gs', initReceivership, Input.md, Input.forget, Input.readyTPs, Input.moving]
  cases hu : x.user with
  | absent => simp [hfresh, M.fresh]
  | bad m =>
    simp only [updM_same, hfresh]
    refine ⟨by trivial, by trivial, by trivial, by trivial, by trivial, by trivial, by trivial, by trivial, fun i hi => updM_ne _ _ hi, rfl, ?_, ?_, ?_⟩
    · intro tp j h; exact .inl h
    · intro tp h; simpa using h
    · intro p; simp
  | ok m =>
    simp only
    by_cases hs : m.status = activeMember
    · simp only [hs, ite_true]
      refine ⟨by trivial, by trivial, by trivial, by trivial, by trivial, by trivial, by trivial, by trivial, fun i hi => updM_ne _ _ hi, ?_, ?_, ?_, ?_⟩
      · simp [hfresh, M.fresh]
      · intro tp j h; exact mem_fold_putKV_of h
      · intro tp h; exact fold_putKV_keeps h
      · intro p; exact mem_fold_insP
    · simp only [hs, ite_false]
      refine ⟨by trivial, by trivial, by trivial, by trivial, by trivial, by trivial, by trivial, by trivial, ?_, ?_, ?_, ?_, ?_⟩
      · intro i hi; simp [updM, hi]
      · simp [hfresh, M.fresh]
      · intro tp j h; exact .inl h
      · intro tp h; simpa using h
      · intro p; simp

/-- The state inside `initAssignments`, after the partitions in `pre`. -/
structure Owned (g0 gs : GS) (id : Nat) (pre : List Int) : Prop where
  ids : gs.ids = g0.ids
  count : gs.count = g0.count
  topic : gs.topic = g0.topic
  ready : gs.ready = g0.ready
  recv : gs.inReceivership = g0.inReceivership
  trees : gs.active = g0.active ∧ gs.inactive = g0.inactive ∧ gs.inTransition = g0.inTransition
  asg : ∀ p i, p ∈ (gs.mem i).asg ↔ gs.assigned p = some i
  don : ∀ i, (gs.mem i).donatable = (gs.mem i).asg
  dong : ∀ i, (gs.mem i).donating = (g0.mem i).donating
  nodup : ∀ i, (gs.mem i).asg.Nodup
  owner : ∀ p, gs.assigned p = (g0.assigned p).or (if p ∈ pre then some id else none)
  un : ∀ p, p ∈ gs.unassigned ↔ p ∈ g0.unassigned ∧ p ∉ pre
  unnodup : gs.unassigned.Nodup
  other : ∀ i, i ≠ id → gs.mem i = g0.mem i
  md : ∀ i, (gs.mem i).md = (g0.mem i).md ∧ (gs.mem i).instr = (g0.mem i).instr

theorem initOwned_step {g0 gs : GS} {id : Nat} {pre : List Int} {p : Int} (h : Owned g0 gs id pre) :
    Owned g0 (initOwned id gs p) id (pre ++ [p]) := by
  unfold initOwned
  simp only
  split
  · rename_i d hd
    refine { h with owner := ?_, un := ?_, unnodup := nodup_delP h.unnodup }
    · intro q
      show gs.assigned q = _
      rw [h.owner q]
      by_cases e : q = p
      · subst e
        have := h.owner q
        rw [hd] at this
        cases hq : g0.assigned q with
        | some _ => simp
        | none =>
          rw [hq] at this
          by_cases hp : q ∈ pre
          · simp [hp]
          · simp [hp] at this
      · simp [e]
    · intro q
      simp only [mem_delP, h.un, List.mem_append, List.mem_singleton]
      tauto
  · rename_i hd
    have hd' : gs.assigned p = none := hd
    refine { h with asg := ?_, don := ?_, dong := ?_, nodup := ?_, owner := ?_, un := ?_,
                    unnodup := nodup_delP h.unnodup, other := ?_, md := ?_ }
    · intro q i
      simp only
      by_cases ei : i = id
      · subst ei
        simp only [updM_same, mem_insP, h.asg]
        by_cases eq : q = p
        · simp [eq]
        · simp [eq]
      · rw [updM_ne _ _ ei, h.asg]
        by_cases eq : q = p
        · subst eq
          simp only [if_true, hd']
          constructor
          · intro h; exact absurd h (by simp)
          · intro h; exact absurd (Option.some.inj h).symm ei
        · simp [eq]
    · intro i
      by_cases ei : i = id
      · subst ei; simp [h.don]
      · simp only [updM_ne _ _ ei, h.don]
    · intro i
      by_cases ei : i = id
      · subst ei; simp [h.dong]
      · simp only [updM_ne _ _ ei, h.dong]
    · intro i
      by_cases ei : i = id
      · subst ei; simpa using nodup_insP (h.nodup _)
      · simpa only [updM_ne _ _ ei] using h.nodup i
    · intro q
      simp only
      by_cases eq : q = p
      · subst eq
        have := h.owner q
        rw [hd'] at this
        cases hq : g0.assigned q with
        | some _ => rw [hq] at this; simp at this
        | none => simp
      · simp only [eq, if_false, h.owner q, List.mem_append, List.mem_singleton, or_false]
    · intro q
      simp only [mem_delP, h.un, List.mem_append, List.mem_singleton]
      tauto
    · intro i hi
      simp only [updM_ne _ _ hi, h.other i hi]
    · intro i
      by_cases ei : i = id
      · subst ei; simpa using h.md i
      · simpa only [updM_ne _ _ ei] using h.md i

theorem ownerOf_append (l : List Input) (x : Input) (topic : Bytes) (p : Int) :
    ownerOf (l ++ [x]) topic p = (ownerOf l topic p).or (if p ∈ x.ownedOf topic then some x.id else none) := by
  unfold ownerOf
  rw [List.find?_append]
  cases h : l.find? fun x => decide (p ∈ x.ownedOf topic) with
  | some y => simp
  | none =>
    simp only [Option.none_or, List.find?_cons, List.find?_nil, Option.map_none]
    by_cases hp : p ∈ x.ownedOf topic <;> simp [hp]

theorem built_add {gs : GS} {done : List Input} {x : Input} (h : Built gs done)
    (hx : x.id ∉ done.map Input.id) : Built (addMember gs x) (done ++ [x]) := by
  have hxi : x.id ∉ gs.ids := by rw [h.ids]; exact hx
  unfold addMember
  simp only
  generalize hg1 : ({ gs with ids := gs.ids ++ [x.id], mem := updM gs.mem x.id fun _ => M.fresh } : GS) = g1
  have hm1 : g1.mem = gs.mem := by
    subst hg1
    funext i
    simp only [updM]
    split
    · rename_i e; subst e; exact (h.absent _ hxi).symm
    · rfl
  have hf1 : g1.mem x.id = M.fresh := by rw [hm1]; exact h.absent _ hxi
  have e1 : g1.ids = gs.ids ++ [x.id] := by subst hg1; rfl
  have e2 : g1.unassigned = gs.unassigned := by subst hg1; rfl
  have e3 : g1.assigned = gs.assigned := by subst hg1; rfl
  have e4 : g1.active = gs.active ∧ g1.inactive = gs.inactive ∧ g1.inTransition = gs.inTransition := by
    subst hg1; exact ⟨rfl, rfl, rfl⟩
  have e5 : g1.count = gs.count := by subst hg1; rfl
  have e6 : g1.topic = gs.topic := by subst hg1; rfl
  have e7 : g1.ready = gs.ready := by subst hg1; rfl
  have e8 : g1.inReceivership = gs.inReceivership := by subst hg1; rfl
  obtain ⟨f1, f2, f3, f4, f5, f6, f7, f8, f9, f10, f11, f12, f13⟩ := initReceivership_spec g1 x hf1
  generalize hg2 : initReceivership g1 x = g2 at *
  have ho : Owned g2 g2 x.id [] :=
    { ids := rfl, count := rfl, topic := rfl, ready := rfl, recv := rfl, trees := ⟨rfl, rfl, rfl⟩
      asg := by
        intro p i
        by_cases ei : i = x.id
        · subst ei
          rw [f10, f3, e3, h.owner]
          simp only [M.fresh, List.not_mem_nil, false_iff]
          intro hh
          unfold ownerOf at hh
          rw [Option.map_eq_some_iff] at hh
          obtain ⟨y, hy, hyi⟩ := hh
          exact hx (List.mem_map.2 ⟨y, List.mem_of_find?_eq_some hy, hyi⟩)
        · rw [f9 i ei, hm1, f3, e3]; exact h.asg p i
      don := by
        intro i
        by_cases ei : i = x.id
        · subst ei; rw [f10]; rfl
        · rw [f9 i ei, hm1]; exact h.don i
      dong := fun i => rfl
      nodup := by
        intro i
        by_cases ei : i = x.id
        · subst ei; rw [f10]; simp [M.fresh]
        · rw [f9 i ei, hm1]; exact h.nodup i
      owner := by intro p; simp
      un := by intro p; simp
      unnodup := by rw [f2, e2]; exact h.unnodup
      other := fun _ _ => rfl
      md := fun _ => ⟨rfl, rfl⟩ }
  have H : Owned g2 (initAssignments g2 x) x.id (x.ownedOf g2.topic) := by
    unfold initAssignments
    exact foldl_pre (fun pre s => Owned g2 s x.id pre) _ _ ho (fun pre p suf s _ hp => initOwned_step hp)
  generalize initAssignments g2 x = g3 at H
  have hdong : ∀ i, (g2.mem i).donating = [] := by
    intro i
    by_cases ei : i = x.id
    · subst ei; rw [f10]; rfl
    · rw [f9 i ei, hm1]; exact h.dong i
  have hne : ∀ y ∈ done, y.id ≠ x.id := fun y hy e => hx (List.mem_map.2 ⟨y, hy, e⟩)
  exact
    { ids := by rw [H.ids, f1, e1, h.ids]; simp
      asg := H.asg
      don := H.don
      dong := fun i => by rw [H.dong, hdong]
      nodup := H.nodup
      owner := by
        intro p
        rw [H.owner, f3, e3, h.owner, H.topic, ownerOf_append, f8, e6]
      un := by
        intro p
        rw [H.un, f2, e2, h.un, H.count, f7, e5, H.owner, f3, e3]
        by_cases hp : p ∈ x.ownedOf g2.topic <;> cases gs.assigned p <;> simp [hp]
      unnodup := H.unnodup
      absent := by
        intro i hi
        rw [H.ids, f1, e1] at hi
        simp only [List.mem_append, List.mem_singleton, not_or] at hi
        rw [H.other i hi.2, f9 i hi.2, hm1]
        exact h.absent i hi.1
      md := by
        intro y hy
        rw [(H.md _).1]
        rcases List.mem_append.1 hy with hy | hy
        · rw [f9 _ (hne y hy), hm1]; exact h.md y hy
        · simp at hy; subst hy; rw [f10]
      instr := by
        intro y hy
        rw [(H.md _).2]
        rcases List.mem_append.1 hy with hy | hy
        · rw [f9 _ (hne y hy), hm1]; exact h.instr y hy
        · simp at hy; subst hy; rw [f10]
      ready := by
        intro tp i hi
        rw [H.ready] at hi
        rcases f11 tp i hi with h0 | ⟨h1, h2⟩
        · rw [e7] at h0
          obtain ⟨y, hy, h1⟩ := h.ready tp i h0
          exact ⟨y, by simp [hy], h1⟩
        · exact ⟨x, by simp, h1.symm, h2⟩
      readyall := by
        intro y hy tp htp
        rw [H.ready]
        apply f12
        rcases List.mem_append.1 hy with hy | hy
        · left; rw [e7]; exact h.readyall y hy tp htp
        · simp at hy; subst hy; exact .inr htp
      recv := by
        intro p
        rw [H.recv, f13, e8, h.recv]
        simp only [List.mem_append, List.mem_singleton]
        constructor
        · rintro (⟨y, hy, hh⟩ | hh)
          · exact ⟨y, .inl hy, hh⟩
          · exact ⟨x, .inr rfl, hh⟩
        · rintro ⟨y, hy | rfl, hh⟩
          · exact .inl ⟨y, hy, hh⟩
          · exact .inr hh
      trees := by
        rw [H.trees.1, H.trees.2.1, H.trees.2.2, f4, f5, f6, e4.1, e4.2.1, e4.2.2]; exact h.trees }

theorem addMember_const (gs : GS) (x : Input) :
    (addMember gs x).count = gs.count ∧ (addMember gs x).topic = gs.topic := by
  have hr : ∀ gs : GS, (initReceivership gs x).count = gs.count ∧ (initReceivership gs x).topic = gs.topic := by
    intro gs
    unfold initReceivership
    cases x.user with
    | absent => exact ⟨rfl, rfl⟩
    | bad m => exact ⟨rfl, rfl⟩
    | ok m => simp only; split <;> exact ⟨rfl, rfl⟩
  have ho : ∀ (gs : GS), (initAssignments gs x).count = gs.count ∧ (initAssignments gs x).topic = gs.topic := by
    intro gs
    unfold initAssignments
    refine foldl_inv (fun s : GS => s.count = gs.count ∧ s.topic = gs.topic) _ _ ⟨rfl, rfl⟩ ?_
    intro p s _ hs
    unfold initOwned
    simp only
    split <;> exact hs
  unfold addMember
  simp only
  constructor
  · rw [(ho _).1, (hr _).1]
  · rw [(ho _).2, (hr _).2]

theorem built_all (ins : List Input) (count : Nat) (topic : Bytes) (hn : (ins.map Input.id).Nodup) :
    Built (ins.foldl addMember (emptyState count topic)) ins ∧
    (ins.foldl addMember (emptyState count topic)).count = count ∧
    (ins.foldl addMember (emptyState count topic)).topic = topic := by
  refine foldl_pre (fun pre s => Built s pre ∧ s.count = count ∧ s.topic = topic) ins _
    ⟨built_empty count topic, rfl, rfl⟩ ?_
  intro pre x suf s hl ⟨hb, h1, h2⟩
  refine ⟨built_add hb ?_, by rw [(addMember_const s x).1, h1], by rw [(addMember_const s x).2, h2]⟩
  subst hl
  simp only [List.map_append, List.map_cons] at hn
  have := (List.nodup_append.1 hn).2.2
  intro hx
  exact this x.id hx x.id (by simp) rfl

/-! ### Freezing and the trees -/

/-- The state `newGroupState` returns, `streams/group_state.go:78-131`. -/
structure Start (g : GS) (ins : List Input) (count : Nat) (topic : Bytes) : Prop where
  cnt : g.count = count
  top : g.topic = topic
  asg : ∀ p i, p ∈ (g.mem i).asg ↔ g.assigned p = some i
  don : ∀ p i, p ∈ (g.mem i).donatable ↔ p ∈ (g.mem i).asg ∧ p ∉ g.inReceivership
  dong : ∀ p i, p ∈ (g.mem i).donating ↔ p ∈ (g.mem i).asg ∧ p ∈ g.inReceivership
  nodup : ∀ i, (g.mem i).asg.Nodup ∧ (g.mem i).donatable.Nodup ∧ (g.mem i).donating.Nodup
  owner : ∀ p, g.assigned p = ownerOf ins topic p
  un : ∀ p, p ∈ g.unassigned ↔ (0 ≤ p ∧ p < count) ∧ g.assigned p = none
  unnodup : g.unassigned.Nodup
  absent : ∀ i, i ∉ ins.map Input.id → g.mem i = M.fresh
  md : ∀ x ∈ ins, (g.mem x.id).md = x.md
  instr : ∀ x ∈ ins, (g.mem x.id).instr = ⟨[], x.forget⟩
  ready : ∀ tp i, (tp, i) ∈ g.ready → ∃ x ∈ ins, x.id = i ∧ tp ∈ x.readyTPs
  readyall : ∀ x ∈ ins, ∀ tp ∈ x.readyTPs, ∃ i, (tp, i) ∈ g.ready
  recv : ∀ p, p ∈ g.inReceivership ↔ ∃ x ∈ ins, ∃ tp ∈ x.moving, tp.part = p
  trans : g.inTransition = []
  sorted : Sorted (activeLess g.mem) g.active
  isorted : Sorted (inactiveLess g.mem) g.inactive
  active : ∀ i, i ∈ g.active ↔ ∃ x ∈ ins, x.id = i ∧ x.md.status ≠ inactiveMember
  inactive : ∀ i, i ∈ g.inactive ↔ ∃ x ∈ ins, x.id = i ∧ x.md.status = inactiveMember

/-- Inside the freezing loop. -/
structure Frozen (g0 gs : GS) (pre : List Int) : Prop where
  rest : ∃ mem, gs = { g0 with mem := mem }
  same : ∀ i, (gs.mem i).asg = (g0.mem i).asg ∧ (gs.mem i).md = (g0.mem i).md ∧
    (gs.mem i).instr = (g0.mem i).instr
  don : ∀ p i, p ∈ (gs.mem i).donatable ↔ p ∈ (g0.mem i).asg ∧ p ∉ pre
  dong : ∀ p i, p ∈ (gs.mem i).donating ↔ p ∈ (g0.mem i).asg ∧ p ∈ pre
  nodup : ∀ i, (gs.mem i).donatable.Nodup ∧ (gs.mem i).donating.Nodup
  fresh : ∀ i, g0.mem i = M.fresh → gs.mem i = M.fresh

theorem freeze_step {g0 gs : GS} {pre : List Int} {q : Int} (hasg : ∀ p i, p ∈ (g0.mem i).asg ↔ g0.assigned p = some i)
    (h : Frozen g0 gs pre) : Frozen g0 (freeze gs q) (pre ++ [q]) := by
  obtain ⟨mem, hm⟩ := h.rest
  unfold freeze
  have ha : gs.assigned = g0.assigned := by rw [hm]
  split
  · rename_i d hd
    rw [ha] at hd
    have hq : ∀ i, q ∈ (g0.mem i).asg ↔ i = d := by
      intro i; rw [hasg, hd]; simp; exact eq_comm
    refine { rest := ⟨_, by rw [hm]⟩, same := ?_, don := ?_, dong := ?_, nodup := ?_, fresh := ?_ }
    · intro i
      by_cases e : i = d
      · subst e; simpa using h.same i
      · simpa only [updM_ne _ _ e] using h.same i
    · intro p i
      by_cases e : i = d
      · subst e
        simp only [updM_same, mem_delP, h.don, List.mem_append, List.mem_singleton]
        tauto
      · simp only [updM_ne _ _ e, h.don, List.mem_append, List.mem_singleton]
        constructor
        · rintro ⟨h1, h2⟩
          refine ⟨h1, ?_⟩
          rintro (h3 | rfl)
          · exact h2 h3
          · exact e ((hq i).1 h1)
        · rintro ⟨h1, h2⟩; exact ⟨h1, fun h => h2 (.inl h)⟩
    · intro p i
      by_cases e : i = d
      · subst e
        simp only [updM_same, mem_insP, h.dong, List.mem_append, List.mem_singleton]
        constructor
        · rintro (rfl | ⟨h1, h2⟩)
          · exact ⟨(hq i).2 rfl, .inr rfl⟩
          · exact ⟨h1, .inl h2⟩
        · rintro ⟨h1, h2 | rfl⟩
          · exact .inr ⟨h1, h2⟩
          · exact .inl rfl
      · simp only [updM_ne _ _ e, h.dong, List.mem_append, List.mem_singleton]
        constructor
        · rintro ⟨h1, h2⟩; exact ⟨h1, .inl h2⟩
        · rintro ⟨h1, h2 | rfl⟩
          · exact ⟨h1, h2⟩
          · exact absurd ((hq i).1 h1) e
    · intro i
      by_cases e : i = d
      · subst e; simpa using ⟨nodup_delP (h.nodup i).1, nodup_insP (h.nodup i).2⟩
      · simpa only [updM_ne _ _ e] using h.nodup i
    · intro i hf
      have e : i ≠ d := by
        intro e
        have := (hq i).2 e
        rw [hf] at this; simp [M.fresh] at this
      simpa only [updM_ne _ _ e] using h.fresh i hf
  · rename_i hd
    rw [ha] at hd
    have hq : ∀ i, q ∉ (g0.mem i).asg := by intro i; rw [hasg, hd]; simp
    refine { h with don := ?_, dong := ?_ }
    · intro p i
      rw [h.don, List.mem_append, List.mem_singleton]
      constructor
      · rintro ⟨h1, h2⟩
        refine ⟨h1, ?_⟩
        rintro (h3 | rfl)
        · exact h2 h3
        · exact hq i h1
      · rintro ⟨h1, h2⟩; exact ⟨h1, fun h => h2 (.inl h)⟩
    · intro p i
      rw [h.dong, List.mem_append, List.mem_singleton]
      constructor
      · rintro ⟨h1, h2⟩; exact ⟨h1, .inl h2⟩
      · rintro ⟨h1, h2 | rfl⟩
        · exact ⟨h1, h2⟩
        · exact absurd h1 (hq i)

/-- Inside the loop inserting the members in the trees. -/
structure Trees (g0 gs : GS) (pre : List Nat) : Prop where
  rest : ∃ a b, gs = { g0 with active := a, inactive := b }
  sorted : Sorted (activeLess g0.mem) gs.active
  isorted : Sorted (inactiveLess g0.mem) gs.inactive
  active : ∀ i, i ∈ gs.active ↔ i ∈ pre ∧ (g0.mem i).md.status ≠ inactiveMember
  inactive : ∀ i, i ∈ gs.inactive ↔ i ∈ pre ∧ (g0.mem i).md.status = inactiveMember

theorem insert_step {g0 gs : GS} {pre : List Nat} {j : Nat} (h : Trees g0 gs pre) :
    Trees g0 (insertMember gs j) (pre ++ [j]) := by
  obtain ⟨a, b, hm⟩ := h.rest
  have hmem : gs.mem = g0.mem := by rw [hm]
  unfold insertMember
  rw [hmem]
  split
  · rename_i hst
    refine { rest := ⟨_, _, by rw [hm]⟩, sorted := h.sorted, isorted := ?_, active := ?_, inactive := ?_ }
    · exact sorted_replaceOrInsert (inactiveLess_ord _) trivial (fun _ _ => trivial) h.isorted
    · intro i
      simp only [h.active, List.mem_append, List.mem_singleton]
      constructor
      · rintro ⟨h1, h2⟩; exact ⟨.inl h1, h2⟩
      · rintro ⟨h1 | rfl, h2⟩
        · exact ⟨h1, h2⟩
        · exact absurd hst h2
    · intro i
      simp only [mem_replaceOrInsert (inactiveLess_ord _) trivial (fun _ _ => trivial) h.isorted,
        inactiveLess_eqv, h.inactive, List.mem_append, List.mem_singleton]
      constructor
      · rintro (rfl | ⟨⟨h1, h2⟩, _⟩)
        · exact ⟨.inr rfl, hst⟩
        · exact ⟨.inl h1, h2⟩
      · rintro ⟨h1, h2⟩
        by_cases e : i = j
        · exact .inl e
        · exact .inr ⟨⟨by tauto, h2⟩, fun hh => e hh.symm⟩
  · rename_i hst
    refine { rest := ⟨_, _, by rw [hm]⟩, sorted := ?_, isorted := h.isorted, active := ?_, inactive := ?_ }
    · exact sorted_replaceOrInsert (activeLess_ord _) trivial (fun _ _ => trivial) h.sorted
    · intro i
      simp only [mem_replaceOrInsert (activeLess_ord _) trivial (fun _ _ => trivial) h.sorted,
        activeLess_eqv, h.active, List.mem_append, List.mem_singleton]
      constructor
      · rintro (rfl | ⟨⟨h1, h2⟩, _⟩)
        · exact ⟨.inr rfl, hst⟩
        · exact ⟨.inl h1, h2⟩
      · rintro ⟨h1, h2⟩
        by_cases e : i = j
        · exact .inl e
        · exact .inr ⟨⟨by tauto, h2⟩, fun hh => e hh.symm⟩
    · intro i
      simp only [h.inactive, List.mem_append, List.mem_singleton]
      constructor
      · rintro ⟨h1, h2⟩; exact ⟨.inl h1, h2⟩
      · rintro ⟨h1 | rfl, h2⟩
        · exact ⟨h1, h2⟩
        · exact absurd h2 hst

theorem start (o : Sched) (ins : List Input) (count : Nat) (topic : Bytes) (hn : (ins.map Input.id).Nodup) :
    Start (newGroupState o ins count topic) ins count topic := by
  unfold newGroupState
  simp only
  obtain ⟨B, hc, ht⟩ := built_all ins count topic hn
  generalize ins.foldl addMember (emptyState count topic) = g0 at *
  have F : Frozen g0 (g0.inReceivership.foldl freeze g0) g0.inReceivership := by
    refine foldl_pre (fun pre s => Frozen g0 s pre) _ _ ?_ (fun pre p suf s _ hp => freeze_step B.asg hp)
    exact ⟨⟨g0.mem, rfl⟩, fun i => ⟨rfl, rfl, rfl⟩, fun p i => by simp [B.don], fun p i => by simp [B.dong],
      fun i => by rw [B.don, B.dong]; exact ⟨B.nodup i, by simp⟩, fun i h => h⟩
  generalize g0.inReceivership.foldl freeze g0 = g1 at F
  obtain ⟨mem, hm⟩ := F.rest
  have T : Trees g1 ((o.members g1.ids).foldl insertMember g1) (o.members g1.ids) := by
    refine foldl_pre (fun pre s => Trees g1 s pre) _ _ ?_ (fun pre p suf s _ hp => insert_step hp)
    have ha : g1.active = [] := by rw [hm]; exact B.trees.1
    have hi : g1.inactive = [] := by rw [hm]; exact B.trees.2.1
    refine ⟨⟨g1.active, g1.inactive, rfl⟩, ?_, ?_, ?_, ?_⟩
    · rw [ha]; exact List.Pairwise.nil
    · rw [hi]; exact List.Pairwise.nil
    · rw [ha]; simp
    · rw [hi]; simp
  generalize (o.members g1.ids).foldl insertMember g1 = g2 at T
  obtain ⟨a, b, hg⟩ := T.rest
  have hmem : g2.mem = g1.mem := by rw [hg]
  have has : g2.assigned = g0.assigned := by rw [hg, hm]
  have hrc : g2.inReceivership = g0.inReceivership := by rw [hg, hm]
  have hids : ∀ i, i ∈ o.members g1.ids ↔ i ∈ ins.map Input.id := by
    intro i
    rw [(o.members_perm g1.ids).mem_iff]
    have : g1.ids = g0.ids := by rw [hm]
    rw [this, B.ids]
  have hst : ∀ x ∈ ins, (g1.mem x.id).md = x.md := fun x hx => by rw [(F.same _).2.1]; exact B.md x hx
  exact
    { cnt := by rw [hg, hm]; exact hc
      top := by rw [hg, hm]; exact ht
      asg := by intro p i; rw [hmem, (F.same i).1, has]; exact B.asg p i
      don := by intro p i; rw [hmem, F.don, (F.same i).1, hrc]
      dong := by intro p i; rw [hmem, F.dong, (F.same i).1, hrc]
      nodup := by intro i; rw [hmem, (F.same i).1]; exact ⟨B.nodup i, F.nodup i⟩
      owner := by intro p; rw [has, B.owner, ht]
      un := by
        intro p
        have h1 : g2.unassigned = g0.unassigned := by rw [hg, hm]
        rw [h1, has, B.un, hc]
      unnodup := by
        have h1 : g2.unassigned = g0.unassigned := by rw [hg, hm]
        rw [h1]; exact B.unnodup
      absent := by intro i hi; rw [hmem]; exact F.fresh i (B.absent i (by rw [B.ids]; exact hi))
      md := by intro x hx; rw [hmem]; exact hst x hx
      instr := by intro x hx; rw [hmem, (F.same _).2.2]; exact B.instr x hx
      ready := by
        intro tp i hi
        have h1 : g2.ready = g0.ready := by rw [hg, hm]
        rw [h1] at hi; exact B.ready tp i hi
      readyall := by
        have h1 : g2.ready = g0.ready := by rw [hg, hm]
        rw [h1]; exact B.readyall
      recv := by intro p; rw [hrc]; exact B.recv p
      trans := by rw [hg, hm]; exact B.trees.2.2
      sorted := by rw [hmem]; exact T.sorted
      isorted := by rw [hmem]; exact T.isorted
      active := by
        intro i
        rw [T.active, hids]
        constructor
        · rintro ⟨h1, h2⟩
          obtain ⟨x, hx, rfl⟩ := List.mem_map.1 h1
          exact ⟨x, hx, rfl, by rw [← hst x hx]; exact h2⟩
        · rintro ⟨x, hx, rfl, h2⟩
          exact ⟨List.mem_map.2 ⟨x, hx, rfl⟩, by rw [hst x hx]; exact h2⟩
      inactive := by
        intro i
        rw [T.inactive, hids]
        constructor
        · rintro ⟨h1, h2⟩
          obtain ⟨x, hx, rfl⟩ := List.mem_map.1 h1
          exact ⟨x, hx, rfl, by rw [← hst x hx]; exact h2⟩
        · rintro ⟨x, hx, rfl, h2⟩
          exact ⟨List.mem_map.2 ⟨x, hx, rfl⟩, by rw [hst x hx]; exact h2⟩ }

end Verif.Rebalance
