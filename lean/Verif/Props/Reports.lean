import Mathlib.Data.List.Induction
import Verif.Rebalance.Group
/-
Property C35, continued: what a member reports as being prepared and ready (`streams/incr_rebalancer.go:295-335`, `365-426`, `437-465`), as a
function of the calls it received.
-/
set_option linter.unusedSimpArgs false
namespace Verif.Rebalance

/-- The call takes the partition out of the set of ready partitions: its preparation failed or is to be forgotten, or it was assigned. -/
def Op.endsReady (tp : TP) : Op → Prop
  | .failed t => t = tp
  | .assigned tps => tp ∈ tps
  | .sync _ ins => tp ∈ ins.forget
  | _ => False

/-- The call takes the partition out of the set of partitions that are being prepared: as above, or the preparation is done. -/
def Op.endsPreparing (tp : TP) : Op → Prop
  | .prepared t => t = tp
  | o => o.endsReady tp

/-- The call asks for the partition to be prepared. -/
def Op.asks (tp : TP) : Op → Prop
  | .sync _ ins => tp ∈ ins.prepare
  | _ => False

/-- The sets after a call, as long as the member has not left. -/
theorem op_sets (m : Mb) (o : Op) (h : (m.op o).closes = m.closes) (tp : TP) :
    (tp ∈ (m.op o).preparing ↔ (tp ∈ m.preparing ∨ o.asks tp) ∧ ¬ o.endsPreparing tp) ∧
    (tp ∈ (m.op o).ready ↔ (tp ∈ m.ready ∨ o = .prepared tp) ∧ ¬ o.endsReady tp) := by
  cases o with
  | leave now =>
    simp only [Mb.op, Mb.gracefullyLeave]
    split <;> simp [Op.asks, Op.endsPreparing, Op.endsReady]
  | prepared t =>
    simp only [Mb.op, Mb.partitionPrepared, mem_delTP, mem_insTP, Op.asks, Op.endsPreparing, Op.endsReady, or_false, Op.prepared.injEq, not_false_eq_true,
      and_true]
    constructor
    · rw [ne_comm]
    · rw [or_comm, eq_comm (a := tp)]
  | failed t =>
    simp only [Mb.op, Mb.partitionPreparationFailed, mem_delTP, Op.asks, Op.endsPreparing, Op.endsReady, or_false, reduceCtorEq]
    rw [ne_comm]
    exact ⟨Iff.rfl, Iff.rfl⟩
  | assigned tps =>
    simp only [Mb.op, partitionsAssigned_eq, List.mem_filter, Op.asks, Op.endsPreparing, Op.endsReady, or_false, reduceCtorEq, decide_eq_true_eq]
    simp
  | sync parsed ins =>
    simp only [Mb.op] at h ⊢
    unfold Mb.parseSync at h ⊢
    split
    · rename_i hc
      rw [if_pos hc] at h
      simp at h
    · obtain ⟨p1, _, _⟩ := prepareLoop_spec m.preparing ins.prepare
      obtain ⟨f1, f2⟩ := forgetLoop_sets (prepareLoop m.preparing ins.prepare).1 m.ready ins.forget 0
      dsimp only
      rw [f1, f2, p1]
      simp [Op.asks, Op.endsPreparing, Op.endsReady]

/-- The number of closes never decreases. -/
theorem closes_op (m : Mb) (o : Op) : m.closes ≤ (m.op o).closes := by
  cases o with
  | leave now => simp only [Mb.op, Mb.gracefullyLeave]; split <;> exact Nat.le_refl _
  | prepared t => exact Nat.le_refl _
  | failed t => exact Nat.le_refl _
  | assigned tps => exact Nat.le_of_eq (partitionsAssigned_status m tps).2.symm
  | sync parsed ins =>
    simp only [Mb.op, Mb.parseSync]
    split
    · exact Nat.le_succ _
    · exact Nat.le_refl _

/-- C35: after any calls, and as long as the member has not left the group, it reports a partition as being prepared exactly if it was told to prepare it
and since then the preparation was neither completed nor failed, the partition neither assigned nor to be forgotten; and as ready exactly if its preparation was completed and
since then none of the latter happened. -/
theorem C35_reported_sets (id : Nat) (ops : List Op) (hc : (ops.foldl Mb.op (Mb.new id)).closes = 0) (tp : TP) :
    (tp ∈ (ops.foldl Mb.op (Mb.new id)).preparing ↔
      ∃ a o b, ops = a ++ o :: b ∧ o.asks tp ∧ ¬ o.endsPreparing tp ∧ ∀ x ∈ b, ¬ x.endsPreparing tp) ∧
    (tp ∈ (ops.foldl Mb.op (Mb.new id)).ready ↔
      ∃ a b, ops = a ++ .prepared tp :: b ∧ ∀ x ∈ b, ¬ x.endsReady tp) := by
  induction ops using List.reverseRecOn with
  | nil => simp [Mb.new]
  | append_singleton ops o ih =>
    rw [List.foldl_append] at hc ⊢
    simp only [List.foldl_cons, List.foldl_nil] at hc ⊢
    have h1 := closes_op (ops.foldl Mb.op (Mb.new id)) o
    have h0 : (ops.foldl Mb.op (Mb.new id)).closes = 0 := by omega
    obtain ⟨s1, s2⟩ := op_sets (ops.foldl Mb.op (Mb.new id)) o (by omega) tp
    obtain ⟨i1, i2⟩ := ih h0
    rw [s1, s2, i1, i2]
    constructor
    · constructor
      · rintro ⟨⟨a, x, b, rfl, k1, k2, k3⟩ | k1, k4⟩
        · refine ⟨a, x, b ++ [o], by simp, k1, k2, ?_⟩
          intro y hy
          rcases List.mem_append.1 hy with hy | hy
          · exact k3 y hy
          · rw [List.mem_singleton.1 hy]; exact k4
        · exact ⟨ops, o, [], rfl, k1, k4, by simp⟩
      · rintro ⟨a, x, b, h, k1, k2, k3⟩
        rcases List.eq_nil_or_concat b with rfl | ⟨b', y, rfl⟩
        · obtain ⟨rfl, e⟩ := List.append_inj' h rfl
          cases e
          exact ⟨.inr k1, k2⟩
        · have : ops ++ [o] = (a ++ x :: b') ++ [y] := by rw [h]; simp
          obtain ⟨rfl, e⟩ := List.append_inj' this rfl
          cases e
          exact ⟨.inl ⟨a, x, b', rfl, k1, k2, fun z hz => k3 z (by simp [hz])⟩, k3 o (by simp)⟩
    · constructor
      · rintro ⟨⟨a, b, rfl, k3⟩ | rfl, k4⟩
        · refine ⟨a, b ++ [o], by simp, ?_⟩
          intro y hy
          rcases List.mem_append.1 hy with hy | hy
          · exact k3 y hy
          · rw [List.mem_singleton.1 hy]; exact k4
        · exact ⟨ops, [], rfl, by simp⟩
      · rintro ⟨a, b, h, k3⟩
        rcases List.eq_nil_or_concat b with rfl | ⟨b', y, rfl⟩
        · obtain ⟨rfl, e⟩ := List.append_inj' h rfl
          cases e
          exact ⟨.inr rfl, by simp [Op.endsReady]⟩
        · have : ops ++ [o] = (a ++ .prepared tp :: b') ++ [y] := by rw [h]; simp
          obtain ⟨rfl, e⟩ := List.append_inj' this rfl
          cases e
          exact ⟨.inl ⟨a, b', rfl, fun z hz => k3 z (by simp [hz])⟩, k3 o (by simp)⟩

/-- C35: reporting a failed preparation or an assignment forces a rebalance exactly if a named partition was being prepared or ready, so the others learn of it. -/
theorem C35_change_forces_rebalance (m : Mb) (tp : TP) (tps : List TP) :
    ((m.partitionPreparationFailed tp).2 = true ↔ tp ∈ m.preparing ∨ tp ∈ m.ready) ∧
    ((m.partitionsAssigned tps).2 = true ↔ ∃ t ∈ tps, t ∈ m.preparing ∨ t ∈ m.ready) := by
  constructor
  · simp [Mb.partitionPreparationFailed]
  · induction tps generalizing m with
    | nil => simp [Mb.partitionsAssigned]
    | cons t tps ih =>
      simp only [Mb.partitionsAssigned, Bool.or_eq_true, decide_eq_true_eq, ih, mem_delTP, List.mem_cons]
      constructor
      · rintro ((h | h) | ⟨x, hx, h | h⟩)
        · exact ⟨t, .inl rfl, .inl h⟩
        · exact ⟨t, .inl rfl, .inr h⟩
        · exact ⟨x, .inr hx, .inl h.1⟩
        · exact ⟨x, .inr hx, .inr h.1⟩
      · rintro ⟨x, rfl | hx, h⟩
        · exact .inl h
        · by_cases e : x = t
          · subst e; exact .inl h
          · rcases h with h | h
            · exact .inr ⟨x, hx, .inl ⟨h, e⟩⟩
            · exact .inr ⟨x, hx, .inr ⟨h, e⟩⟩

/-- A member that was told to prepare two partitions, has prepared one and failed with the other, and was told to prepare the latter again. -/
example :
    let ops : List Op := [.sync [([116], [0])] ⟨[⟨1, [116]⟩, ⟨2, [116]⟩], []⟩, .prepared ⟨1, [116]⟩, .failed ⟨2, [116]⟩, .leave 5,
      .sync [([116], [0])] ⟨[⟨2, [116]⟩], []⟩]
    (ops.foldl Mb.op (Mb.new 3)).closes = 0 ∧ (ops.foldl Mb.op (Mb.new 3)).preparing = [⟨2, [116]⟩] ∧
      (ops.foldl Mb.op (Mb.new 3)).ready = [⟨1, [116]⟩] := by decide

end Verif.Rebalance
