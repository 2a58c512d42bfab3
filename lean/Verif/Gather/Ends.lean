import Verif.Gather.Proofs
import Verif.Promise.Stuck
/-
Workers and an `AsyncBatcher`: every schedule ends.
-/
namespace Verif.Gather
open Verif.Batcher (Batch Item State Label upd upd_self upd_ne Full)
open Verif.Promise (sumTo sumTo_one sumTo_congr)

set_option linter.unusedSectionVars false

variable {K : Type} [DecidableEq K]

theorem addOne_work {s : State K} (S : Batcher.Str s) (x : Item K) : (Batcher.addOne s x).work ≤ s.work + 9 := by
  have S' : Batcher.Str { s with added := s.added ++ [x] } := ⟨S.pos, S.out, S.asg, S.cnt, S.eok, S.locI, S.locN⟩
  unfold Batcher.addOne
  dsimp only
  cases he : Batcher.execFor { s with added := s.added ++ [x] } x with
  | none => simp only [State.work, List.length_append, List.length_singleton]; omega
  | some i =>
    have h1 := Batcher.addTo_work S' he
    have h2 := Batcher.same_addTo { s with added := s.added ++ [x] } x i
    have h3 : (Batcher.addTo { s with added := s.added ++ [x] } x i).pending = s.pending := by
      obtain ⟨hr, _, _⟩ := Batcher.execFor_some S' he
      rw [Batcher.addTo_eq hr]
    simp only [State.work, h3]
    dsimp only at h1
    omega

/-- The steps an event that is not yet handled still has before it. -/
def evWork (l : List (Batch K)) : Nat := (l.map fun B => 19 * B.itemsToAdd.length + 1).sum

/-- The steps of one worker. -/
def work (s : Sys K) (p : Nat) : Nat := evWork (s.evq p) + 19 * (s.b.adders p).length + (s.jobs p).length

/-- An upper bound of the steps that remain until nothing moves by itself. -/
def todo (N : Nat) (s : Sys K) : Nat := sumTo (work s) N + 2 * s.b.work

/-- Only the first `N` workers have anything to do. -/
def Outside (N : Nat) (s : Sys K) : Prop := (∀ p, N ≤ p → s.evq p = [] ∧ s.b.adders p = [] ∧ s.jobs p = []) ∧ ∀ e, e < s.next → s.part e < N

theorem own_step {c : Cfg} {N : Nat} {s s' : Sys K} {a : Act K} (I : Inv c s) (O : Outside N s) (ha : ∀ p k ks, a ≠ .arrive p k ks) (h : step c s a = some s') :
    Outside N s' ∧ todo N s' < todo N s := by
  obtain ⟨O1, O2⟩ := O
  have hint : ∀ (l : Label K) (b' : State K), l.internal = true → Batcher.step s.b l = some b' → b'.adders = s.b.adders ∧ b'.work < s.b.work :=
    fun l b' hl hb => ⟨(internal_same hl hb).1, Batcher.step_work I.full.good hl hb⟩
  have hsame : ∀ b' : State K, b'.adders = s.b.adders → b'.work < s.b.work → Outside N { s with b := b' } ∧ todo N { s with b := b' } < todo N s := by
    intro b' h1 h2
    refine ⟨⟨fun p hp => ?_, O2⟩, ?_⟩
    · dsimp only; rw [h1]; exact O1 p hp
    · have : sumTo (work { s with b := b' }) N = sumTo (work s) N := sumTo_congr fun p _ => by simp only [work, h1]
      simp only [todo, this]
      omega
  cases a with
  | arrive p k ks => exact absurd rfl (ha p k ks)
  | handle p =>
    simp only [step] at h
    split at h
    · rename_i B rest hev
      simp only [Option.map_eq_some_iff] at h
      obtain ⟨b', hb, rfl⟩ := h
      obtain ⟨c1, c2, rfl⟩ := call_is hb
      have hp : p < N := by
        by_contra hc
        rw [(O1 p (by omega)).1] at hev; simp at hev
      refine ⟨⟨fun q hq => ?_, O2⟩, ?_⟩
      · have hqp : q ≠ p := by omega
        dsimp only; rw [upd_ne _ _ hqp, upd_ne _ _ hqp]; exact O1 q hq
      · have := sumTo_one (f := work { s with
            b := { s.b with adders := upd s.b.adders p B.itemsToAdd, batches := upd s.b.batches B.id (some B) }, evq := upd s.evq p rest }) (g := work s) hp
          (by intro q hq; simp only [work, upd_ne _ _ hq])
        simp only [work, upd_self, hev, c1, evWork, List.map_cons, List.sum_cons, List.length_nil] at this
        have hw : ({ s.b with adders := upd s.b.adders p B.itemsToAdd, batches := upd s.b.batches B.id (some B) } : State K).work = s.b.work := rfl
        simp only [todo, hw]
        omega
    · simp at h
  | add p =>
    simp only [step, Option.map_eq_some_iff] at h
    obtain ⟨b', hb, rfl⟩ := h
    obtain ⟨x, r, hx, rfl⟩ := add_is hb
    have hf := (Batcher.addOne_fields { s.b with adders := upd s.b.adders p r } x).1
    have hS := I.full.good.1.str
    have hw : (Batcher.addOne { s.b with adders := upd s.b.adders p r } x).work ≤ s.b.work + 9 :=
      addOne_work (s := { s.b with adders := upd s.b.adders p r }) ⟨hS.pos, hS.out, hS.asg, hS.cnt, hS.eok, hS.locI, hS.locN⟩ x
    dsimp only at hf hw
    have hp : p < N := by
      by_contra hc
      rw [(O1 p (by omega)).2.1] at hx; simp at hx
    refine ⟨⟨fun q hq => ?_, O2⟩, ?_⟩
    · have hqp : q ≠ p := by omega
      dsimp only; rw [hf, upd_ne _ _ hqp]; exact O1 q hq
    · have := sumTo_one (f := work { s with b := Batcher.addOne { s.b with adders := upd s.b.adders p r } x }) (g := work s) hp
          (by intro q hq; simp only [work, hf, upd_ne _ _ hq])
      simp only [work, hf, upd_self, hx, List.length_cons] at this
      simp only [todo]
      omega
  | fire i =>
    simp only [step, Option.map_eq_some_iff] at h
    obtain ⟨b', hb, rfl⟩ := h
    have := hint _ _ rfl hb
    exact hsame b' this.1 this.2
  | flush i =>
    simp only [step, Option.map_eq_some_iff] at h
    obtain ⟨b', hb, rfl⟩ := h
    have := hint _ _ rfl hb
    exact hsame b' this.1 this.2
  | go i j =>
    simp only [step] at h
    split at h
    · simp at h
    · rename_i b' hb
      have hi := hint _ _ rfl hb
      rcases (Batcher.grow_step hb).2 with hc | ⟨e, hc⟩
      · rw [hc, List.drop_length] at h
        simp only [Option.some.injEq] at h; subst h
        exact hsame b' hi.1 hi.2
      · rw [hc, List.drop_left] at h
        simp only at h
        split at h
        · simp only [Option.some.injEq] at h; subst h
          have hp : s.part e < N := by
            apply O2
            apply I.known
            rw [← (internal_same rfl hb).2]
            exact called_known (Batcher.full_step I.full hb) (by rw [hc]; simp)
          refine ⟨⟨fun q hq => ?_, O2⟩, ?_⟩
          · have hqp : q ≠ s.part e := by omega
            dsimp only; rw [upd_ne _ _ hqp, hi.1]; exact O1 q hq
          · have := sumTo_one (f := work { s with b := b', jobs := upd s.jobs (s.part e) (s.jobs (s.part e) ++ [e]) }) (g := work s) hp
              (by intro q hq; simp only [work, hi.1, upd_ne _ _ hq])
            simp only [work, hi.1, upd_self, List.length_append, List.length_singleton] at this
            simp only [todo]
            omega
        · simp at h
  | job p =>
    simp only [step] at h
    split at h
    · rename_i e rest hadd hj
      simp only [Option.some.injEq] at h; subst h
      have hp : p < N := by
        by_contra hc
        rw [(O1 p (by omega)).2.2] at hj; simp at hj
      refine ⟨⟨fun q hq => ?_, O2⟩, ?_⟩
      · have hqp : q ≠ p := by omega
        dsimp only; rw [upd_ne _ _ hqp]; exact O1 q hq
      · have := sumTo_one (f := work { s with jobs := upd s.jobs p rest, slots := upd s.slots p (s.slots p - 1), done := s.done ++ [e] }) (g := work s) hp
          (by intro q hq; simp only [work, upd_ne _ _ hq])
        simp only [work, upd_self, hj, List.length_cons] at this
        simp only [todo]
        omega
    · simp at h

theorem outside_step {c : Cfg} {s s' : Sys K} {a : Act K} (I : Inv c s) (O : ∃ N, Outside N s) (h : step c s a = some s') : ∃ N, Outside N s' := by
  obtain ⟨N, O⟩ := O
  by_cases ha : ∃ p k ks, a = .arrive p k ks
  · obtain ⟨p, k, ks, rfl⟩ := ha
    simp only [step] at h
    split at h
    · simp only [Option.some.injEq] at h; subst h
      refine ⟨max N (p + 1), fun q hq => ?_, fun e he => ?_⟩
      · have hqp : q ≠ p := by omega
        dsimp only; rw [upd_ne _ _ hqp]; exact O.1 q (by omega)
      · dsimp only at he ⊢
        by_cases hen : e = s.next
        · subst hen; rw [upd_self]; omega
        · rw [upd_ne _ _ hen]; have := O.2 e (by omega); omega
    · simp at h
  · exact ⟨N, (own_step I O (fun p k ks e => ha ⟨p, k, ks, e⟩) h).1⟩

theorem outside_run {c : Cfg} {as : List (Act K)} {s s' : Sys K} (I : Inv c s) (O : ∃ N, Outside N s) (h : run c s as = some s') : ∃ N, Outside N s' := by
  induction as generalizing s with
  | nil => simp only [run, Option.some.injEq] at h; subst h; exact O
  | cons a as ih =>
    simp only [run, Option.bind_eq_some_iff] at h
    obtain ⟨s1, e1, e2⟩ := h
    exact ih (inv_step I e1) (outside_step I O e1) e2

theorem outside_reach {c : Cfg} (hm : 1 ≤ c.batchSize) {s : Sys K} (h : Reach c s) : ∃ N, Outside N s := by
  obtain ⟨as, h⟩ := h
  exact outside_run (inv_init c hm) ⟨0, by simp [Outside, Sys.init, Batcher.init]⟩ h

theorem own_run {c : Cfg} {N : Nat} {as : List (Act K)} {s s' : Sys K} (I : Inv c s) (O : Outside N s) (ha : ∀ a ∈ as, ∀ p k ks, a ≠ .arrive p k ks)
    (h : run c s as = some s') : as.length + todo N s' ≤ todo N s := by
  induction as generalizing s with
  | nil => simp only [run, Option.some.injEq] at h; subst h; simp
  | cons a as ih =>
    simp only [run, Option.bind_eq_some_iff] at h
    obtain ⟨s1, e1, e2⟩ := h
    obtain ⟨O', hd⟩ := own_step I O (ha a (by simp)) e1
    have := ih (inv_step I e1) O' (fun b hb => ha b (by simp [hb])) e2
    simp only [List.length_cons]
    omega

end Verif.Gather
