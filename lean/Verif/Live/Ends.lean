import Verif.Live.Quiet
import Mathlib.Data.List.Perm.Subperm
/-
What happens by itself comes to an end.
-/
set_option linter.unusedSimpArgs false
set_option linter.unusedTactic false
set_option linter.unreachableTactic false
namespace Verif.Live
open Verif.Eos

/-! ### The pool -/

def nn (ad : List (Ev × Nat)) (g : Nat) : Nat := (evOf ad g).length

def topOf (gen : Nat) (fwd : Fwd) : Nat := if fwd = .swap then gen + 1 else gen

def queueM (ad : List (Ev × Nat)) (st top : Nat) : Nat := ((List.range' st (top - st)).map fun g => 4 * nn ad g + 12).sum

def deckM (ad : List (Ev × Nat)) (gen : Nat) (fwd : Fwd) : Nat :=
  if fwd = .swap then 0 else if 0 < nn ad gen ∨ fwd ≠ .idle then 4 * nn ad gen + 12 else 0

def rankM (pending : Nat) (ad : List (Ev × Nat)) (st gen : Nat) : Fwd → Nat
  | .idle => if 0 < nn ad gen ∧ gen - st < pending then 4 else 0
  | .swap => 1
  | .force => 2
  | .trying => 3
  | .given => 5
  | .added _ => 6

def cntOf (l : List Ev) (tp : Nat) : Nat := (l.filter fun e => e.part = tp).length

def comM (ad : List (Ev × Nat)) (lo : Nat) : ACom → Nat
  | .idle => 0
  | .stopped => 0
  | .back => 1
  | .relinq rest => rest.length + 2
  | .fin cur _ rest => cur.length + (rest.map fun tp => 1 + cntOf (evOf ad lo) tp).sum + nn ad lo + 4
  | .begun => 3 * nn ad lo + 5

def meas (pending : Nat) (ad : List (Ev × Nat)) (lo st gen : Nat) (fwd : Fwd) (com : ACom) : Nat :=
  queueM ad st (topOf gen fwd) + deckM ad gen fwd + rankM pending ad st gen fwd + comM ad lo com

def measA (c : Eos.Cfg) (a : A) : Nat := meas c.pending a.added a.lo a.st a.gen a.fwd a.com

theorem cnt_sum (l : List Ev) (ts : List Nat) (h : ts.Nodup) : (ts.map fun tp => cntOf l tp).sum ≤ l.length := by
  induction ts generalizing l with
  | nil => simp
  | cons t ts ih =>
    rw [List.nodup_cons] at h
    have h1 := ih (l.filter fun e => e.part ≠ t) h.2
    have h2 : (ts.map fun tp => cntOf (l.filter fun e => e.part ≠ t) tp) = ts.map fun tp => cntOf l tp := by
      apply List.map_congr_left
      intro tp htp
      unfold cntOf
      rw [List.filter_filter]
      congr 1
      apply List.filter_congr
      intro e _
      by_cases he : e.part = tp
      · have : tp ≠ t := by rintro rfl; exact h.1 htp
        simp [he, this]
      · simp [he]
    rw [h2] at h1
    have h3 : cntOf l t + (l.filter fun e => e.part ≠ t).length = l.length := by
      unfold cntOf
      have := List.length_eq_length_filter_add (l := l) (fun e => decide (e.part = t))
      simp only [← decide_not] at this
      simp only [ne_eq]
      omega
    simp only [List.map_cons, List.sum_cons]
    omega

theorem parts_le (nd : Node) : nd.parts.length ≤ nd.evs.length := by
  unfold Node.parts
  exact Nat.le_trans (List.dedup_sublist _).length_le (by simp)

theorem sum_one (f : Nat → Nat) (l : List Nat) : (l.map fun tp => 1 + f tp).sum = l.length + (l.map f).sum := by
  induction l with
  | nil => rfl
  | cons x l ih => simp only [List.map_cons, List.sum_cons, List.length_cons, ih]; omega

theorem aflush_frame (a : A) (q tp : Nat) : (aflushPartition a q tp).added = a.added ∧ (aflushPartition a q tp).lo = a.lo ∧
    (aflushPartition a q tp).st = a.st ∧ (aflushPartition a q tp).gen = a.gen ∧ (aflushPartition a q tp).fwd = a.fwd := ⟨rfl, rfl, rfl, rfl, rfl⟩

theorem arel_frame (n : Nat) (a : A) (tp : Nat) : (arelinquish n a tp).added = a.added ∧ (arelinquish n a tp).lo = a.lo ∧
    (arelinquish n a tp).st = a.st ∧ (arelinquish n a tp).gen = a.gen ∧ (arelinquish n a tp).fwd = a.fwd := by
  unfold arelinquish; dsimp only; split <;> exact ⟨rfl, rfl, rfl, rfl, rfl⟩

variable {c : Eos.Cfg} {a a' : A}

theorem cnt_gen {n : Nat} (B : Base n a) (h : a.fwd ≠ .swap) : (a.nodes a.gen).cnt = nn a.added a.gen := by
  have ht := top_of_ne h
  have h1 := B.win.1
  apply B.cnt a.gen (by omega)
  by_cases hc : a.com = .back
  · left
    have h2 := B.st
    rw [hc] at h2
    have := lo_lt_gen B h h2
    omega
  · exact .inr hc

/-- The steps of the pool that count: `internal`. -/
def Counts (c : Eos.Cfg) (a : A) : Eos.Label → Prop
  | .tick => 0 < nn a.added a.gen ∧ a.gen - a.st < c.pending
  | .add _ => False
  | .complete _ => False
  | .produce _ _ => False
  | .commitFail _ => False
  | .asyncFail => False
  | _ => True

theorem range_snoc {st gen : Nat} (h : st ≤ gen) : List.range' st (gen + 1 - st) = List.range' st (gen - st) ++ [gen] := by
  have : gen + 1 - st = (gen - st) + 1 := by omega
  rw [this, List.range'_concat]
  congr 2; omega

theorem meas_swap (pending : Nat) (ad : List (Ev × Nat)) (lo st gen : Nat) (fwd : Fwd) (com : ACom) (h : st ≤ gen) (hf : fwd ≠ .swap)
    (hi : fwd ≠ .idle) : meas pending ad lo st gen .swap com + rankM pending ad st gen fwd = meas pending ad lo st gen fwd com + 1 := by
  unfold meas queueM deckM topOf
  rw [if_pos rfl, if_pos rfl, if_neg hf, if_neg hf, if_pos (.inr hi), range_snoc h]
  simp only [List.map_append, List.map_cons, List.map_nil, List.sum_append, List.sum_cons, List.sum_nil, rankM]
  omega

theorem astep_meas {l : Eos.Label} (B : Base c.poolSize a) (hl : Counts c a l) (h : astep c a l = some a') : measA c a' < measA c a := by
  have hB := B.win
  cases l with
  | add => exact hl.elim
  | complete => exact hl.elim
  | produce => exact hl.elim
  | commitFail => exact hl.elim
  | asyncFail => exact hl.elim
  | give =>
    unfold astep at h; simp only at h
    split at h
    · rename_i e hf
      cases h
      unfold measA meas; dsimp only
      rw [hf]
      simp [deckM, topOf, rankM]
    · cases h
  | check =>
    unfold astep at h; simp only at h
    split at h
    · rename_i hf
      cases h
      unfold measA meas; dsimp only
      rw [hf]
      split
      · simp [deckM, topOf, rankM]
      · simp only [deckM, topOf, rankM, reduceCtorEq, if_false, ne_eq, not_true, not_false_iff, or_true, if_true, or_false]
        split <;> split <;> omega
    · cases h
  | tick =>
    unfold astep at h; simp only at h
    split at h
    · rename_i hf
      cases h
      unfold measA meas; dsimp only
      rw [hf]
      simp [deckM, topOf, rankM, hl.1, hl.2]
    · cases h
  | tryFlush =>
    unfold astep at h; simp only at h
    split at h
    · rename_i hf
      have hst : a.st ≤ a.gen := by
        have := B.top; rw [top_of_ne (by rw [hf]; simp)] at this; exact this
      have hcn := cnt_gen B (by rw [hf]; simp)
      split at h
      · cases h
        unfold measA meas; dsimp only
        rw [hf]
        simp [deckM, topOf, rankM]
      split at h
      · split at h
        · cases h
          have := meas_swap c.pending a.added a.lo a.st a.gen a.fwd a.com hst (by rw [hf]; simp) (by rw [hf]; simp)
          unfold measA; dsimp only
          rw [hf] at this ⊢
          simp only [rankM] at this
          omega
        · rename_i hroom
          cases h
          unfold measA meas; dsimp only
          rw [hf]
          simp only [deckM, topOf, rankM, reduceCtorEq, if_false, ne_eq, not_true, not_false_iff, or_true, if_true, or_false]
          rw [if_neg (c := 0 < nn a.added a.gen ∧ a.gen - a.st < c.pending) (fun hx => hroom hx.2)]
          split <;> omega
      · rename_i h0
        cases h
        rw [hcn] at h0
        unfold measA meas; dsimp only
        rw [hf]
        simp only [deckM, topOf, rankM, reduceCtorEq, if_false, ne_eq, not_true, not_false_iff, or_true, if_true, or_false]
        rw [if_neg h0, if_neg (fun hx => h0 hx.1)]
        omega
    · cases h
  | forced =>
    unfold astep at h; simp only at h
    split at h
    · rename_i hf
      have hst : a.st ≤ a.gen := by
        have := B.top; rw [top_of_ne (by rw [hf]; simp)] at this; exact this
      split at h
      · cases h
        have := meas_swap c.pending a.added a.lo a.st a.gen a.fwd a.com hst (by rw [hf]; simp) (by rw [hf]; simp)
        unfold measA; dsimp only
        rw [hf] at this ⊢
        simp only [rankM] at this
        omega
      · cases h
    · cases h
  | swapIn =>
    unfold astep at h; simp only at h
    split at h
    · rename_i hf
      split at h
      · cases h
        have h0 : nn a.added (a.gen + 1) = 0 := by
          unfold nn
          rw [evOf_nil]; rfl
          intro x hx
          have := B.le x hx
          omega
        unfold measA meas; dsimp only
        rw [hf]
        simp [deckM, topOf, rankM, h0]
      · cases h
    · cases h
  | take =>
    unfold astep at h; simp only at h
    split at h
    · rename_i hc
      split at h
      · rename_i hlt
        cases h
        have hst : a.st = a.lo := by have := B.st; rw [hc] at this; exact this
        have ht : a.top = topOf a.gen a.fwd := rfl
        unfold measA meas; dsimp only
        rw [hc, ← ht]
        have hq : queueM a.added a.st a.top = 4 * nn a.added a.st + 12 + queueM a.added (a.st + 1) a.top := by
          unfold queueM
          have : a.top - a.st = (a.top - (a.st + 1)) + 1 := by omega
          rw [this, List.range'_succ]
          simp
        have hrk : rankM c.pending a.added (a.st + 1) a.gen a.fwd ≤ rankM c.pending a.added a.st a.gen a.fwd + 4 := by
          cases a.fwd <;> simp only [rankM] <;> repeat' split
          all_goals omega
        rw [hq]
        simp only [comM]
        rw [hst] at *
        omega
      · cases h
    · cases h
  | beginCommit order =>
    unfold astep at h; simp only at h
    split at h
    · rename_i hc
      split at h
      · rename_i ho
        cases h
        have hev := B.evs a.lo (Nat.le_refl _) (.inr (by unfold A.relinquished; rw [hc]))
        have hp := ho.length_eq
        have hpl := parts_le (a.nodes a.lo)
        have hs : (order.map (cntOf (evOf a.added a.lo))).sum ≤ _ := cnt_sum (evOf a.added a.lo) order (ho.nodup_iff.2 (parts_nodup _))
        unfold measA meas abeginCommit; dsimp only
        rw [hc]
        simp only [comM, sum_one, List.length_nil]
        rw [hev] at hpl
        unfold nn
        omega
      · cases h
    · cases h
  | wait =>
    unfold astep at h; simp only at h
    split at h
    · rename_i e es flag rest hc
      split at h
      · split at h
        · cases h
          obtain ⟨f1, f2, f3, f4, f5, f6, f7, f8, f9, f10, f11⟩ := aproduce_frame a a.lo e.part (.commit e.part (_ + 1))
          unfold measA meas; dsimp only
          rw [f1, f2, f3, f5, f9, hc]
          simp only [comM, List.length_cons]
          omega
        · cases h
          unfold measA meas; dsimp only
          rw [hc]
          simp only [comM, List.length_cons]
          omega
      · cases h
    · rename_i tp rest hc
      cases h
      have hev := B.evs a.lo (Nat.le_refl _) (.inr (by unfold A.relinquished; rw [hc]))
      have hch : ((a.nodes a.lo).chain tp).length = cntOf (evOf a.added a.lo) tp := by
        unfold Node.chain cntOf; rw [hev]; simp
      unfold measA meas; dsimp only
      rw [hc]
      simp only [comM, List.map_cons, List.sum_cons, hch, List.length_nil]
      omega
    · cases h
  | endTxn order =>
    unfold astep at h; simp only at h
    split at h
    · rename_i hc
      split at h
      · rename_i ho
        cases h
        have hev := B.evs a.lo (Nat.le_refl _) (.inr (by unfold A.relinquished; rw [hc]))
        have hp := ho.length_eq
        have hpl := parts_le (a.nodes a.lo)
        rw [hev] at hpl
        unfold measA meas; dsimp only
        rw [hc]
        simp only [comM, List.map_nil, List.sum_nil, List.length_nil]
        unfold nn
        omega
      · cases h
    · cases h
  | release =>
    unfold astep at h; simp only at h
    split at h
    · rename_i tp rest hc
      cases h
      obtain ⟨f1, f2, f3, f4, f5⟩ := arel_frame c.poolSize a tp
      unfold measA meas; dsimp only
      rw [f1, f2, f3, f4, f5, hc]
      simp only [comM, List.length_cons]
      omega
    · rename_i hc
      cases h
      unfold measA meas; dsimp only
      rw [hc]
      simp only [comM, List.length_nil]
      omega
    · cases h
  | giveBack =>
    unfold astep at h; simp only at h
    split at h
    · rename_i hc
      cases h
      unfold measA meas; dsimp only
      rw [hc]
      simp only [comM]
      omega
    · cases h

theorem add_meas {e : Ev} (B : Base c.poolSize a) (h : astep c a (.add e) = some a') : measA c a' ≤ measA c a + 22 := by
  unfold astep at h; simp only at h
  have key : a.fwd = .idle → (a.com ≠ .idle → a.st = a.lo + 1 ∨ a.com = .stopped) → a' = { a with
        nodes := upd a.nodes a.gen { a.nodes a.gen with
          evs := (a.nodes a.gen).evs ++ [e], cnt := (a.nodes a.gen).cnt + 1 }
        fwd := .added e
        added := a.added ++ [(e, a.gen)] } → measA c a' ≤ measA c a + 22 := by
    intro hf hst ha'
    subst ha'
    have ht : a.st ≤ a.gen := by
      have := B.top; rw [top_of_ne (by rw [hf]; simp)] at this; exact this
    have hne : ∀ g, g ≠ a.gen → evOf (a.added ++ [(e, a.gen)]) g = evOf a.added g := by
      intro g hg; rw [evOf_snoc, if_neg hg]
    have heq : nn (a.added ++ [(e, a.gen)]) a.gen = nn a.added a.gen + 1 := by
      unfold nn; rw [evOf_snoc, if_pos rfl]; simp
    have hq : queueM (a.added ++ [(e, a.gen)]) a.st a.gen = queueM a.added a.st a.gen := by
      unfold queueM
      congr 1
      apply List.map_congr_left
      intro g hg
      rw [List.mem_range'_1] at hg
      unfold nn; rw [hne g (by omega)]
    have hcm : comM (a.added ++ [(e, a.gen)]) a.lo a.com = comM a.added a.lo a.com := by
      have hl : a.com ≠ .idle → a.com ≠ .stopped → a.lo ≠ a.gen := by
        intro h1 h2
        rcases hst h1 with h | h
        · omega
        · exact absurd h h2
      cases hc : a.com with
      | begun =>
        simp only [comM, nn]
        rw [hne a.lo (hl (by rw [hc]; simp) (by rw [hc]; simp))]
      | fin cur flag rest =>
        simp only [comM, nn]
        rw [hne a.lo (hl (by rw [hc]; simp) (by rw [hc]; simp))]
      | _ => rfl
    unfold measA meas; dsimp only
    rw [hf, hcm]
    simp only [deckM, topOf, rankM, reduceCtorEq, if_false, ne_eq, not_true, not_false_iff, or_true, if_true, or_false]
    rw [hq, heq]
    repeat' split
    all_goals omega
  have hst : a.com ≠ .idle → a.st = a.lo + 1 ∨ a.com = .stopped := by
    intro h1
    have := B.st
    cases hc : a.com <;> rw [hc] at this <;> simp_all
  repeat' split at h
  all_goals first
    | (cases h; rename_i hf _ _ _ _; exact key hf hst rfl)
    | (cases h; rename_i hf _ _ _; exact key hf hst rfl)
    | (cases h; rename_i hf _ _; exact key hf hst rfl)
    | cases h

theorem complete_meas {e : Ev} (h : astep c a (.complete e) = some a') : measA c a' = measA c a := by
  unfold astep at h; simp only at h
  repeat' split at h
  all_goals first
    | (cases h; rfl)
    | cases h

theorem produce_meas {e : Ev} {x : Nat} (h : astep c a (.produce e x) = some a') : measA c a' = measA c a := by
  unfold astep at h; simp only at h
  split at h
  · split at h
    · cases h
      obtain ⟨f1, f2, f3, f4, f5, f6, f7, f8, f9, f10, f11⟩ := aproduce_frame a _ e.part (.user x)
      unfold measA
      rw [f1, f2, f3, f5, f6, f9]
    · cases h
  · cases h

/-! ### The whole -/

/-- `n` steps that happen by themselves, and any number of records produced by handlers. -/
inductive Calm (c : Cfg) (s : Sys) : Nat → Sys → Prop where
  | start : Calm c s 0 s
  | next {n : Nat} {s' s'' : Sys} (l : Label) : Calm c s n s' → internal c s' l = true → step c s' l = some s'' → Calm c s (n + 1) s''
  | produce {n : Nat} {s' s'' : Sys} (e : Ev) (x : Nat) : Calm c s n s' → step c s' (.pool (.produce e x)) = some s'' → Calm c s n s''

theorem internal_allowed {c : Cfg} {s : Sys} {l : Label} (h : internal c s l = true) : Allowed l := by
  cases l with
  | arrive => cases h
  | pool l => cases l <;> first | trivial | cases h
  | _ => trivial

theorem calm_reach {c : Cfg} {s s' : Sys} {n : Nat} (hr : Reach c s) (h : Calm c s n s') : Reach c s' := by
  induction h with
  | start => exact hr
  | next l _ hi hs ih => exact .step l ih (internal_allowed hi) hs
  | produce e x _ hs ih => exact .step (.pool (.produce e x)) ih trivial hs

theorem done_nodup {c : Eos.Cfg} {s : Pool} (h : Eos.Reach c s) : s.done.Nodup := by
  induction h with
  | init => simp [Pool.init]
  | @step s s' l _ _ hs ih =>
    by_cases ho : ownStep l = true
    · rw [(own_frame ho hs).2.1]; exact ih
    · cases l with
      | add e =>
        unfold Eos.step at hs
        simp only at hs
        repeat' split at hs
        all_goals first
          | (cases hs; exact ih)
          | cases hs
      | complete e =>
        unfold Eos.step at hs
        simp only at hs
        split at hs
        · split at hs
          · rename_i hn
            cases hs
            dsimp only
            rw [List.nodup_append]
            refine ⟨ih, by simp, ?_⟩
            intro a h1 b h2 he
            rw [List.mem_singleton.1 h2] at he
            subst he
            exact hn.2 h1
          · cases hs
        · cases hs
      | commitFail b =>
        unfold Eos.step at hs
        simp only at hs
        split at hs
        · cases hs; exact ih
        · cases hs
      | _ => exact absurd rfl ho

theorem nodup_of_of {l : List Ev} (h : ∀ p, (of p l).Nodup) : l.Nodup := by
  rw [List.nodup_iff_count_le_one]
  intro e
  have := List.nodup_iff_count_le_one.1 (h e.part) e
  unfold of at this
  rw [List.count_filter (by simp)] at this
  exact this

theorem len_le {c : Cfg} {s : Sys} (I : Inv c s) :
    s.put.length + s.picked.length + s.handled.length + s.pool.done.length ≤ 4 * s.arrived.length := by
  have a := arrived_nodup I
  have n1 : s.put.Nodup := nodup_of_of fun p => by
    have := of_nodup (p := p) a; rw [← I.f1] at this; exact (List.nodup_append.1 this).1
  have n2 : s.picked.Nodup := nodup_of_of fun p => by
    have := of_nodup (p := p) n1; rw [← I.f2] at this; exact (List.nodup_append.1 this).1
  have n3 : s.handled.Nodup := nodup_of_of fun p => by
    have := of_nodup (p := p) n2; rw [← I.f3] at this; exact (List.nodup_append.1 this).1
  have l1 := (n1.subperm (l₂ := s.arrived) fun e h => put_arrived I h).length_le
  have l2 := (n2.subperm (l₂ := s.arrived) fun e h => put_arrived I (picked_put I h)).length_le
  have l3 := (n3.subperm (l₂ := s.arrived) fun e h => put_arrived I (picked_put I (handled_picked I h))).length_le
  have l4 := ((done_nodup I.reach).subperm (l₂ := s.arrived.map Ev.id) fun i h => I.ds i h).length_le
  rw [List.length_map] at l4
  omega

def workM (s : Sys) : Nat := 4 * s.arrived.length - (s.put.length + s.picked.length + s.handled.length + s.pool.done.length)

def measS (c : Cfg) (s : Sys) (a : A) : Nat := measA c.pool a + 23 * s.buf.length + workM s

theorem complete_done {c : Eos.Cfg} {s s' : Pool} {e : Ev} (h : Eos.step c s (.complete e) = some s') : s'.done = s.done ++ [e.id] := by
  unfold Eos.step at h
  simp only at h
  repeat' split at h
  all_goals first
    | (cases h; rfl)
    | cases h

theorem add_done {c : Eos.Cfg} {s s' : Pool} {e : Ev} (h : Eos.step c s (.add e) = some s') : s'.done = s.done := by
  unfold Eos.step at h
  simp only at h
  repeat' split at h
  all_goals first
    | (cases h; rfl)
    | cases h

theorem internal_meas {c : Cfg} {s s' : Sys} {a : A} {l : Label} (hn : 0 < c.pool.poolSize) (I : Inv c s) (ha : AReach c.pool a)
    (r : R c.pool.poolSize s.pool a) (hi : internal c s l = true) (h : step c s l = some s') :
    ∃ a', AReach c.pool a' ∧ R c.pool.poolSize s'.pool a' ∧ measS c s' a' < measS c s a := by
  have I' := inv_step I (internal_allowed hi) h
  have hlen := len_le I
  have hlen' := len_le I'
  have B := base_reach hn ha
  have O := order_reach hn ha
  cases l with
  | arrive => cases hi
  | put p =>
    refine ⟨a, ha, ?_⟩
    simp only [step] at h
    repeat' split at h
    all_goals first
      | (cases h
         refine ⟨r, ?_⟩
         unfold measS workM
         simp only [List.length_append, List.length_singleton] at hlen' ⊢
         omega)
      | cases h
  | forward =>
    simp only [step] at h
    split at h
    · rename_i e buf hb
      rw [Option.map_eq_some_iff] at h
      obtain ⟨pool, hp, rfl⟩ := h
      obtain ⟨a', h1, r'⟩ := sim_step hn (.add e) (by simp) B O r hp
      refine ⟨a', .step _ ha h1, r', ?_⟩
      have hm := add_meas B h1
      unfold measS workM
      dsimp only
      rw [add_done hp, hb, List.length_cons]
      omega
    · cases h
  | pool l =>
    simp only [step] at h
    split at h
    · rename_i ho
      rw [Option.map_eq_some_iff] at h
      obtain ⟨pool, hp, rfl⟩ := h
      have hnf : l ≠ .commitFail true := by rintro rfl; cases hi
      obtain ⟨a', h1, r'⟩ := sim_step hn l hnf B O r hp
      refine ⟨a', .step _ ha h1, r', ?_⟩
      have hc : Counts c.pool a l := by
        cases l with
        | add => cases ho
        | complete => cases ho
        | produce => cases hi
        | commitFail => cases hi
        | asyncFail => cases hi
        | tick =>
          have hf : a.fwd = .idle := by
            unfold astep at h1; simp only at h1
            split at h1
            · rename_i hf; exact hf
            · cases h1
          simp only [internal, decide_eq_true_eq] at hi
          have hcn := cnt_gen B (by rw [hf]; simp)
          have ht := top_of_ne (a := a) (by rw [hf]; simp)
          have hw := B.win
          have hq : s.pool.cq.length = a.top - a.st := by rw [r.cq]; simp
          have h2 : (s.pool.nodes s.pool.onDeck).cnt = (a.nodes a.gen).cnt := by
            rw [r.onDeck, r.nodes a.gen (by omega) hw.2]
          unfold Counts
          rw [← hcn, ← h2, ← ht, ← hq]
          exact hi
        | _ => trivial
      have hm := astep_meas B hc h1
      have hd : pool.done = s.pool.done := (own_frame ho hp).2.1
      unfold measS workM
      dsimp only
      rw [hd]
      omega
    · cases h
  | pick p =>
    refine ⟨a, ha, ?_⟩
    simp only [step] at h
    split at h
    · cases h
      refine ⟨r, ?_⟩
      unfold measS workM
      simp only [List.length_append, List.length_singleton] at hlen' ⊢
      omega
    · cases h
  | pickInter p =>
    simp only [step, I.ij p] at h
    split at h
    · rename_i hq; cases hq
    · cases h
  | handle p ok =>
    simp only [step] at h
    split at h
    · split at h
      · cases h
      · split at h
        · rw [Option.map_eq_some_iff] at h
          obtain ⟨pool, hp, rfl⟩ := h
          obtain ⟨a', h1, r'⟩ := sim_step hn _ (by simp) B O r hp
          refine ⟨a', .step _ ha h1, r', ?_⟩
          have hm := complete_meas h1
          unfold measS workM
          simp only [complete_done hp, List.length_append, List.length_singleton] at hlen' ⊢
          omega
        · cases h
          refine ⟨a, ha, r, ?_⟩
          unfold measS workM
          simp only [List.length_append, List.length_singleton] at hlen' ⊢
          omega
    · cases h
  | finish e =>
    simp only [step] at h
    split at h
    · rw [Option.map_eq_some_iff] at h
      obtain ⟨pool, hp, rfl⟩ := h
      obtain ⟨a', h1, r'⟩ := sim_step hn _ (by simp) B O r hp
      refine ⟨a', .step _ ha h1, r', ?_⟩
      have hm := complete_meas h1
      unfold measS workM
      simp only [complete_done hp, List.length_append, List.length_singleton] at hlen' ⊢
      omega
    · cases h

theorem calm_meas {c : Cfg} {s s' : Sys} {a : A} {n : Nat} (hn : 0 < c.pool.poolSize) (hr : Reach c s) (ha : AReach c.pool a)
    (r : R c.pool.poolSize s.pool a) (h : Calm c s n s') :
    ∃ a', AReach c.pool a' ∧ R c.pool.poolSize s'.pool a' ∧ n + measS c s' a' ≤ measS c s a := by
  induction h with
  | start => exact ⟨a, ha, r, by omega⟩
  | next l hc hi hs ih =>
    obtain ⟨a1, h1, h2, h3⟩ := ih
    obtain ⟨a2, h4, h5, h6⟩ := internal_meas hn (inv_reach (calm_reach hr hc)) h1 h2 hi hs
    exact ⟨a2, h4, h5, by omega⟩
  | produce e x hc hs ih =>
    obtain ⟨a1, h1, h2, h3⟩ := ih
    simp only [step, ownStep, if_true] at hs
    rw [Option.map_eq_some_iff] at hs
    obtain ⟨pool, hp, rfl⟩ := hs
    obtain ⟨a2, h4, h5⟩ := sim_step hn _ (by simp) (base_reach hn h1) (order_reach hn h1) h2 hp
    refine ⟨a2, .step _ h1 h4, h5, ?_⟩
    have hm := produce_meas h4
    have hd : pool.done = _ := (own_frame (l := .produce e x) rfl hp).2.1
    unfold measS workM at h3 ⊢
    dsimp only
    rw [hd]
    omega

theorem calm_bounded {c : Cfg} {s : Sys} (hn : 0 < c.pool.poolSize) (hr : Reach c s) : ∃ N, ∀ n s', Calm c s n s' → n ≤ N := by
  obtain ⟨a, ha, r⟩ := sim_reach hn (inv_reach hr).reach
  refine ⟨measS c s a, fun n s' h => ?_⟩
  obtain ⟨a', _, _, h3⟩ := calm_meas hn hr ha r h
  omega

theorem calm_trans {c : Cfg} {s s' s'' : Sys} {n m : Nat} (h : Calm c s n s') (h' : Calm c s' m s'') : Calm c s (n + m) s'' := by
  induction h' with
  | start => exact h
  | next l _ hi hs ih => exact .next l ih hi hs
  | produce e x _ hs ih => exact .produce e x ih hs

theorem calm_ends {c : Cfg} {s : Sys} (hn : 0 < c.pool.poolSize) (hr : Reach c s) : ∃ n s', Calm c s n s' ∧ Quiet c s' := by
  obtain ⟨N, hN⟩ := calm_bounded hn hr
  have key : ∀ k n s', Calm c s n s' → n + k = N + 1 → ∃ n s', Calm c s n s' ∧ Quiet c s' := by
    intro k
    induction k with
    | zero => intro n s' h hk; have := hN n s' h; omega
    | succ k ih =>
      intro n s' h hk
      by_cases hq : Quiet c s'
      · exact ⟨n, s', h, hq⟩
      · unfold Quiet at hq
        push Not at hq
        obtain ⟨l, h1, h2⟩ := hq
        obtain ⟨s2, hs⟩ := Option.ne_none_iff_exists'.1 h2
        exact ih (n + 1) s2 (.next l h h1 hs) (by omega)
  exact key (N + 1) 0 s .start (by omega)

end Verif.Live
