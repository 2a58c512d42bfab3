import Verif.Batches.Store
/-
Proofs for C114: what the executor is given.
-/
namespace Verif.Batches
open Verif.Scheduler (Job sub upd)
open Verif.Batcher (Item Batch)

set_option linter.unusedSectionVars false

variable {K σ X : Type} [DecidableEq K] {c : Cfg K σ X} {w w' : W K σ} {H H' : Nat → List (Job K)}

/-- The items of the record at an offset, if it is of a key. -/
def itemsAt (c : Cfg K σ X) (p : Nat) (k : K) (o : Nat) : List (Nat × Nat) :=
  match (c.src p)[o]? with
  | some (k', x) => if k' = k then (List.range (c.parts k x)).map fun i => (o, i) else []
  | none => []

theorem itemsOf_succ (p : Nat) (k : K) (lo hi : Nat) : itemsOf c p k lo (hi + 1) = itemsOf c p k lo hi ++ if lo ≤ hi then itemsAt c p k hi else [] := by
  unfold itemsOf
  rw [List.range_succ, List.flatMap_append]
  congr 1
  simp only [List.flatMap_cons, List.flatMap_nil, List.append_nil, itemsAt]
  split <;> split <;> simp_all

theorem itemsOf_low (p : Nat) (k : K) (lo hi : Nat) (h : hi ≤ lo) : itemsOf c p k lo hi = [] := by
  induction hi with
  | zero => rfl
  | succ hi ih => rw [itemsOf_succ, ih (by omega), if_neg (by omega)]; rfl

theorem itemsOf_mono (p : Nat) (k : K) (lo : Nat) {hi hi' : Nat} (h : hi ≤ hi') : itemsOf c p k lo hi <+: itemsOf c p k lo hi' := by
  induction hi' with
  | zero => have : hi = 0 := by omega
            subst this; exact List.prefix_refl _
  | succ hi' ih =>
    by_cases he : hi = hi' + 1
    · subst he; exact List.prefix_refl _
    · rw [itemsOf_succ]; exact (ih (by omega)).trans (List.prefix_append _ _)

theorem Base.itemsOf_take (B : Base c H w) (p : Nat) (k : K) : ∀ n, n ≤ (w.ev p).length →
    itemsOf c p k (w.base p) (w.base p + n) = ((w.ev p).take n).flatMap fun y => itemsAt c p k (w.off y.id) := by
  intro n
  induction n with
  | zero => intro _; rw [itemsOf_low _ _ _ _ (by omega)]; simp
  | succ n ih =>
    intro hn
    have hy : (w.ev p)[n]? = some ((w.ev p)[n]'(by omega)) := List.getElem?_eq_getElem _
    obtain ⟨-, -, ho, -⟩ := B.evs p n _ hy
    rw [← Nat.add_assoc, itemsOf_succ, ih (by omega), if_pos (by omega), List.take_add_one, hy, List.flatMap_append]
    simp [ho]

theorem items_zero {y : Job K} {x : X} (h : c.parts y.key x = 0) : (batchOf c y x).itemsToAdd = [⟨y.id, 0, y.key, true⟩] := by
  unfold Batch.itemsToAdd
  rw [if_pos (by simp [batchOf, h])]
  rfl

theorem items_pos {y : Job K} {x : X} (h : c.parts y.key x ≠ 0) :
    (batchOf c y x).itemsToAdd = (List.range (c.parts y.key x)).map fun i => ⟨y.id, i, y.key, false⟩ := by
  unfold Batch.itemsToAdd
  rw [if_neg (by simp [batchOf, h])]
  apply List.ext_getElem
  · simp [batchOf]
  · intro n h1 h2
    simp [batchOf]

/-- The items of an event, as offset and number. -/
theorem Base.its_at (B : Base c H w) {p : Nat} {y : Job K} (hy : y ∈ w.ev p) (k : K) :
    ((its c w y).filter fun x => decide (x.key = k ∧ x.noop = false)).map (fun x => (w.off x.batch, x.idx)) = itemsAt c p k (w.off y.id) := by
  obtain ⟨i, hi, hg⟩ := List.getElem_of_mem hy
  obtain ⟨h1, -, h3, -, x, hx⟩ := B.evs p i y (by rw [List.getElem?_eq_getElem hi, hg])
  have hv : value c w y = some x := by unfold value; rw [h1, h3, hx]; rfl
  unfold its itemsAt
  rw [hv, h3, hx]
  show ((batchOf c y x).itemsToAdd.filter _).map _ = if y.key = k then _ else _
  by_cases h0 : c.parts y.key x = 0
  · rw [items_zero h0]
    by_cases hk : y.key = k
    · rw [if_pos hk, ← hk, h0]; simp
    · rw [if_neg hk]; simp
  · rw [items_pos h0]
    by_cases hk : y.key = k
    · rw [if_pos hk, List.filter_eq_self.mpr]
      · subst hk
        rw [List.map_map]
        exact List.map_congr_left fun n _ => by simp [h3]
      · intro z hz
        obtain ⟨n, -, rfl⟩ := List.mem_map.mp hz
        simp [hk]
    · rw [if_neg hk, List.filter_eq_nil_iff.mpr]
      · rfl
      · intro z hz
        obtain ⟨n, -, rfl⟩ := List.mem_map.mp hz
        simp [hk]

theorem Base.executed_prefix (hm : 1 ≤ c.maxSize) (B : Base c H w) (p : Nat) (k : K) :
    executed w p k <+: itemsOf c p k (w.base p) (w.base p + (w.ev p).length) := by
  have e1 : executed w p k = ((Batcher.ofKey k w.bat.calls.flatten).filter (mine w p)).map fun x => (w.off x.batch, x.idx) := by
    unfold executed Batcher.ofKey
    rw [List.filter_filter]
    congr 1
    refine List.filter_congr fun x hx => ?_
    obtain ⟨l, hl, hxl⟩ := List.mem_flatten.mp hx
    have hno := (Batcher.C21_batch_size hm B.br l hl).2.2 x hxl
    simp [mine, hno, Bool.and_comm]
  have h1 : executed w p k <+: ((Batcher.ofKey k w.bat.added).filter (mine w p)).map fun x => (w.off x.batch, x.idx) := by
    rw [e1]; exact ((Batcher.C23_order hm B.br k).filter _).map _
  have h2 : ((Batcher.ofKey k w.bat.added).filter (mine w p)).map (fun x => (w.off x.batch, x.idx)) <+:
      (((H p).flatMap (its c w)).filter fun x => decide (x.key = k ∧ x.noop = false)).map fun x => (w.off x.batch, x.idx) := by
    rw [← B.it p, List.filter_append, List.map_append]
    unfold Batcher.ofKey
    rw [List.filter_comm]
    exact List.prefix_append _ _
  have h3 : (((H p).flatMap (its c w)).filter fun x => decide (x.key = k ∧ x.noop = false)).map (fun x => (w.off x.batch, x.idx)) =
      (H p).flatMap fun y => itemsAt c p k (w.off y.id) := by
    rw [List.filter_flatMap, List.map_flatMap]
    exact flatMap_congr_mem fun y hy => B.its_at (B.H_ev hy) k
  have h4 : H p = (w.ev p).take (H p).length := by rw [← B.hq p]; simp
  have hlen : (H p).length ≤ (w.ev p).length := by rw [← B.hq p]; simp
  rw [h3] at h2
  refine (h1.trans h2).trans ?_
  have := B.itemsOf_take p k (H p).length hlen
  rw [← h4] at this
  rw [← this]
  exact itemsOf_mono _ _ _ (by omega)

theorem Base.committed_executed (hm : 1 ≤ c.maxSize) (B : Base c H w) {p o : Nat} {k : K} {x : X} (h1 : w.base p ≤ o) (h2 : o < w.wm p) (hx : (c.src p)[o]? = some (k, x))
    {i : Nat} (hi : i < c.parts k x) : (o, i) ∈ executed w p k := by
  unfold W.wm at h2
  have hlt : o - w.base p < (w.ev p).length := by have := B.com p; omega
  have hy : (w.ev p)[o - w.base p]? = some ((w.ev p)[o - w.base p]) := List.getElem?_eq_getElem hlt
  obtain ⟨e1, -, e3, e4, x', e5⟩ := B.evs p _ _ hy
  have hob : w.base p + (o - w.base p) = o := by omega
  rw [hob, hx] at e5
  obtain ⟨hk, hxx⟩ : k = ((w.ev p)[o - w.base p]).key ∧ x = x' := by simpa using e5
  subst hxx
  have hmem : (w.ev p)[o - w.base p] ∈ (w.ev p).take (w.com p) := List.mem_take_iff_getElem.mpr ⟨o - w.base p, by omega, rfl⟩
  obtain ⟨e, he, hee⟩ := List.mem_map.mp (B.don p _ hmem)
  have hcalled := (B.prod_mem hm he).2
  rw [hee] at hcalled
  obtain ⟨q, z, hz, hzb, hze, -⟩ := B.called_H hm hcalled
  rw [e4] at hze
  cases hze
  obtain ⟨x2, hv, hb⟩ := B.bat q _ hz
  have hx2 : x2 = x := by
    unfold value at hv
    rw [e1, e3, hob, hx] at hv
    simpa using hv.symm
  subst hx2
  have hall := (Batcher.C24_callback hm B.br (B := batchOf c ((w.ev p)[o - w.base p]) x2) hb).2.2 hcalled (by
    rw [hk] at hi
    simp only [batchOf, ne_eq, List.replicate_eq_nil_iff]; omega)
  have hin : (⟨((w.ev p)[o - w.base p]).id, i, ((w.ev p)[o - w.base p]).key, false⟩ : Item K) ∈ (batchOf c ((w.ev p)[o - w.base p]) x2).itemsToAdd := by
    rw [hk] at hi
    unfold Batch.itemsToAdd
    rw [if_neg (by simp only [batchOf, List.replicate_eq_nil_iff]; omega), List.mem_mapIdx]
    exact ⟨i, by simpa [batchOf] using hi, by simp [batchOf]⟩
  have := hall _ hin
  unfold executed
  rw [List.mem_map]
  exact ⟨_, List.mem_filter.mpr ⟨this, by simp [hk, e4, e1]⟩, by simp [e3, hob]⟩

end Verif.Batches
