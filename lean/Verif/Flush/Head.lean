import Verif.Flush.Eff
/-
The first of the pending items: whom it waits for, and when it stops being the first.
-/
namespace Verif.Flush

open Verif.Batcher

set_option linter.unusedSectionVars false

variable {K : Type} [DecidableEq K]

/-- The first pending item is still there after an execution has ended only if its key is in another batch that is being executed. -/
theorem head_kept {s s' : State K} {l : Batcher.Label K} {i : Nat} (G : Good s) (h : Batcher.step s l = some s') (hE : Ends s l i) {x : Item K}
    {r : List (Item K)} (hp : s.pending = x :: r) (hn : x ∉ r) (hx : x ∈ s'.pending) :
    ∃ j, j ≠ i ∧ s.assign x.key = some j ∧ (s.execs j).executing = true := by
  have S := G.1.str
  obtain ⟨rfl, hg⟩ := hE
  simp only [Batcher.step, Option.map_eq_some_iff] at h
  obtain ⟨p, hp', rfl⟩ := h
  obtain ⟨he, hg', -, -⟩ := the_go S hp'
  have hpe : p = .nooping [] := by rw [hg] at hg'; simpa using hg'.symm
  subst hpe
  have herase : (s.execs i).gos.eraseIdx 0 = [] := by rw [hg]; rfl
  simp only [goStep, finish, herase] at hx
  have hi : i < s.n := lt_of_ne S (by intro h; rw [h] at he; simp at he)
  set s0 : State K := reset { s with count := s.count - 1, execs := upd s.execs i { s.execs i with gos := [] } } i with hs0
  have hxi : (s0.execs i).executing = false := by simp [hs0, reset]
  have hxo : ∀ j, j ≠ i → s0.execs j = s.execs j := by
    intro j hj
    simp only [hs0, reset]
    rw [upd_ne _ _ hj, upd_ne _ _ hj]
  have hcnt : s0.count ≠ (s0.n : Int) := by
    have h1 := S.cnt
    have h2 := busy_le s.execs s.n
    change s.count - 1 ≠ (s.n : Int)
    omega
  have hp0 : s0.pending = x :: r := hp
  unfold flushPending at hx
  rw [if_neg hcnt, hp0] at hx
  simp only [flushLoop] at hx
  cases hf : execFor s0 x with
  | some m =>
    exfalso
    rw [hf] at hx
    simp only at hx
    split at hx
    · exact hn (by simpa using hx)
    · have := (adds_flushLoop (addTo s0 x m) [] r).2
      exact hn (by simpa using this.subset hx)
  | none =>
    rcases execFor_none hf with ⟨j, h1, h2⟩ | h
    · have hj : j ≠ i := by rintro rfl; rw [hxi] at h2; simp at h2
      refine ⟨j, hj, ?_, by rw [hxo j hj] at h2; exact h2⟩
      simp only [hs0, reset] at h1
      split at h1
      · simp at h1
      · exact h1
    · have := h i hi
      rw [hxi] at this; simp at this

theorem pending_count {s : State K} (G : Good s) (x : Item K) :
    s.pending.count x + s.done.count x + (s.execs ((s.assign x.key).getD s.n)).unfinished.count x +
      (s.execs ((s.assign x.key).getD s.n)).unnooped.count x = s.added.count x := by
  have S := G.1.str
  have hout := S.out s.n (Nat.le_refl _)
  have key : ∀ c (f : Exec K → List (Item K)), Line s s.pending c f s.done → x.noop = c → f {} = [] →
      s.added.count x = s.done.count x + (f (s.execs ((s.assign x.key).getD s.n))).count x + s.pending.count x := by
    intro c f L hc h0
    have h := congrArg (fun l => l.count x) (L x.key)
    have hcl : cls x.key c x = true := by simp [cls, hc]
    simp only [List.count_append] at h
    rw [List.count_filter hcl, List.count_filter hcl, List.count_filter hcl] at h
    unfold here at h
    cases ha : s.assign x.key with
    | none =>
      rw [ha] at h
      simp only [Option.getD_none, hout, h0]
      simpa using h
    | some i =>
      rw [ha] at h
      simp only at h
      rw [List.count_filter hcl] at h
      simpa using h
  have kind : ∀ i, (x.noop = false → (s.execs i).unnooped.count x = 0) ∧ (x.noop = true → (s.execs i).unfinished.count x = 0) := by
    intro i
    constructor
    · intro hx
      rw [List.count_eq_zero]
      intro h
      have := (S.eok i).kindN x (unnooped_noops S h)
      rw [hx] at this; simp at this
    · intro hx
      rw [List.count_eq_zero]
      intro h
      have := (S.eok i).kindI x (unfinished_items S h)
      rw [hx] at this; simp at this
  rcases Bool.eq_false_or_eq_true x.noop with hx | hx
  · have := key true _ G.1.nooped hx rfl
    have := (kind ((s.assign x.key).getD s.n)).2 hx
    omega
  · have := key false _ G.1.finished hx rfl
    have := (kind ((s.assign x.key).getD s.n)).1 hx
    omega

theorem pending_nodup {s : State K} (G : Good s) (A : Acc s) : s.pending.Nodup := by
  rw [List.nodup_iff_count_le_one]
  intro x
  have h1 := pending_count G x
  have h2 := List.nodup_iff_count_le_one.1 A.nodup x
  omega

theorem pending_open {s : State K} (G : Good s) (A : Acc s) {x : Item K} (h : x ∈ s.pending) : x ∈ s.added ∧ x ∉ s.done := by
  have h1 := pending_count G x
  have h2 := List.nodup_iff_count_le_one.1 A.nodup x
  have h3 := List.count_pos_iff.2 h
  refine ⟨List.count_pos_iff.1 (by omega), fun hd => ?_⟩
  have := List.count_pos_iff.2 hd
  omega

/-- Where an element is in a sublist. -/
theorem sub_split {A B l : List (Item K)} {x : Item K} (hn : (A ++ x :: B).Nodup) (h : l.Sublist (A ++ x :: B)) (hx : x ∈ l) :
    ∃ A' B', l = A' ++ x :: B' ∧ A'.Sublist A ∧ B'.Sublist B := by
  obtain ⟨l1, l2, rfl, h1, h2⟩ := List.sublist_append_iff.1 h
  obtain ⟨-, hn2, hn3⟩ := List.nodup_append.1 hn
  have hx2 : x ∈ l2 := by
    rcases List.mem_append.1 hx with h | h
    · exact absurd rfl (hn3 x (h1.subset h) x (by simp))
    · exact h
  cases h2 with
  | cons _ h => exact absurd (h.subset hx2) (List.nodup_cons.1 hn2).1
  | cons_cons _ h => exact ⟨l1, _, rfl, h1, h⟩

end Verif.Flush
