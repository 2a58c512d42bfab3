import Verif.Delay.Spec
import Verif.Eos.Abstract
/-
Proofs about the flush timer.
-/
namespace Verif.Delay
open Verif.Eos (upd upd_same upd_ne)

/-- The node the commit loop works on. -/
def comNode : Eos.Com → List Nat
  | .begun p => [p]
  | .fin p _ _ _ => [p]
  | .relinq p _ => [p]
  | .back p => [p]
  | _ => []

/-- The nodes that are somewhere: on deck, free, waiting to be committed, being committed. -/
def places (p : Eos.Pool) : List Nat :=
  (if p.fwd = .swap then [] else [p.onDeck]) ++ (p.free ++ (p.cq ++ comNode p.com))

/-- Nobody is in two places, and free nodes are empty. -/
structure Fresh (p : Eos.Pool) : Prop where
  once : (places p).Nodup
  empty : ∀ q ∈ p.free, (p.nodes q).cnt = 0
  back : ∀ q, p.com = .back q → (p.nodes q).cnt = 0

theorem fresh_init (c : Eos.Cfg) : Fresh (Eos.Pool.init c) := by
  constructor
  · simp only [places, Eos.Pool.init, comNode, List.append_nil, reduceCtorEq, if_false]
    rcases Nat.eq_zero_or_pos c.poolSize with h | h
    · simp [h]
    · obtain ⟨n, hn⟩ := Nat.exists_eq_succ_of_ne_zero (Nat.pos_iff_ne_zero.1 h)
      rw [hn, List.range_succ_eq_map]
      simp only [List.drop_succ_cons, List.drop_zero]
      rw [List.singleton_append, ← List.range_succ_eq_map]
      exact List.nodup_range
  · intro q _; rfl
  · intro q h; cases h

theorem produce_cnt (s : Eos.Pool) (p tp : Nat) (r : Eos.Rec) (q : Nat) : ((Eos.produce s p tp r).nodes q).cnt = (s.nodes q).cnt := by
  unfold Eos.produce
  simp only
  split <;> · by_cases h : q = p <;> simp [upd, h]

theorem produce_frame (s : Eos.Pool) (p tp : Nat) (r : Eos.Rec) :
    (Eos.produce s p tp r).onDeck = s.onDeck ∧ (Eos.produce s p tp r).free = s.free ∧ (Eos.produce s p tp r).cq = s.cq ∧
    (Eos.produce s p tp r).fwd = s.fwd ∧ (Eos.produce s p tp r).com = s.com := by
  unfold Eos.produce; simp only; split <;> exact ⟨rfl, rfl, rfl, rfl, rfl⟩

theorem relinquish_cnt (n : Nat) (s : Eos.Pool) (p tp q : Nat) : ((Eos.relinquish n s p tp).nodes q).cnt = (s.nodes q).cnt := by
  unfold Eos.relinquish Eos.flushPartition
  simp only
  split
  · simp only [upd]; split <;> split <;> simp_all
  · simp only [upd]; split <;> simp_all

theorem relinquish_frame (n : Nat) (s : Eos.Pool) (p tp : Nat) :
    (Eos.relinquish n s p tp).onDeck = s.onDeck ∧ (Eos.relinquish n s p tp).free = s.free ∧
    (Eos.relinquish n s p tp).cq = s.cq ∧ (Eos.relinquish n s p tp).fwd = s.fwd := by
  unfold Eos.relinquish Eos.flushPartition; simp only; split <;> exact ⟨rfl, rfl, rfl, rfl⟩

/-- What a step does to the counters of the nodes. -/
theorem cnt_step {c : Eos.Cfg} {p p' : Eos.Pool} {l : Eos.Label} (h : Eos.step c p l = some p') (q : Nat) :
    (p'.nodes q).cnt = (p.nodes q).cnt ∨ (p'.nodes q).cnt = 0 ∨ ((∃ e, l = .add e) ∧ q = p.onDeck ∧ p.fwd = .idle) := by
  cases l <;> simp only [Eos.step] at h <;> (repeat' split at h) <;>
    first
    | (cases h; done)
    | (simp only [Option.some.injEq] at h; subst h; first
        | exact .inl rfl
        | exact .inl (produce_cnt ..)
        | exact .inl (relinquish_cnt ..)
        | (simp only [Eos.beginCommit, upd]; split <;> simp_all; done)
        | (by_cases hq : q = p.onDeck <;> simp_all [upd]; done)
        | (simp only [upd]; split <;> simp_all [Eos.Node.clear]))

/-- What a step does to the places of the nodes. -/
theorem fresh_step {c : Eos.Cfg} {p p' : Eos.Pool} {l : Eos.Label} (F : Fresh p) (h : Eos.step c p l = some p') : Fresh p' := by
  have hc := cnt_step h
  have key : (places p').Nodup ∧ (∀ q ∈ p'.free, q ∈ p.free ∨ p.com = .back q) ∧
      (∀ q, p'.com = .back q → p.com = .back q ∨ (p'.nodes q).cnt = 0) := by
    have ho := F.once
    cases l <;> simp only [Eos.step] at h <;> (repeat' split at h) <;>
      first
      | (cases h; done)
      | (simp only [Option.some.injEq] at h; subst h
         simp_all [places, comNode, produce_frame, relinquish_frame, Eos.beginCommit, Eos.Node.clear, upd]
         done)
      | skip
    all_goals
      simp only [Option.some.injEq] at h
      subst h
      refine ⟨?_, by first | (simp_all; done) | (simp_all [eq_comm]), by simp_all⟩
      rw [List.nodup_iff_count_le_one] at ho ⊢
      intro a
      have := ho a
      simp only [places, comNode, *, reduceCtorEq, if_true, if_false, List.count_append, List.count_cons, List.count_nil] at this ⊢
      omega
  refine ⟨key.1, ?_, ?_⟩
  · intro q hq
    rcases hc q with h1 | h1 | ⟨⟨e, h0⟩, h1, h2⟩
    · rw [h1]
      rcases key.2.1 q hq with h3 | h3
      · exact F.empty q h3
      · exact F.back q h3
    · exact h1
    · subst h0
      exfalso
      subst h1
      have := F.once
      rcases key.2.1 _ hq with h3 | h3 <;> simp [places, h2, h3, comNode] at this
  · intro q hq
    rcases key.2.2 q hq with h3 | h3
    · rcases hc q with h1 | h1 | ⟨⟨e, h0⟩, h1, h2⟩
      · rw [h1]; exact F.back q h3
      · exact h1
      · exfalso
        have := F.once
        simp [places, h2, h3, comNode, h1] at this
    · exact h3

theorem run_cons {c : Cfg} {s s' : S} {l : Label} {ls : List Label} (h : run c s (l :: ls) = some s') :
    ∃ t, step c s l = some t ∧ run c t ls = some s' := by
  simp only [run] at h
  cases h1 : step c s l with
  | none => rw [h1] at h; cases h
  | some t => rw [h1] at h; exact ⟨t, rfl, h⟩

/-- What a step of the pool is. -/
theorem pool_step {c : Cfg} {s s' : S} {l : Eos.Label} (h : step c s (.pool l) = some s') :
    s.crashed = false ∧ ∃ p t, Eos.step c.eos s.pool l = some p ∧ timer c s l = some t ∧ s' = { t with pool := p } := by
  simp only [step] at h
  split at h
  · cases h
  · rename_i hc
    refine ⟨by simpa using hc, ?_⟩
    split at h
    · rename_i p t h1 h2
      exact ⟨p, t, h1, h2, (Option.some.inj h).symm⟩
    · cases h

theorem timer_pool {c : Cfg} {s t : S} {l : Eos.Label} (h : timer c s l = some t) : t.pool = s.pool ∧ t.now = s.now := by
  cases l <;> simp only [timer, S.reset] at h <;> (repeat' split at h) <;>
    first
    | (cases h; done)
    | (simp only [Option.some.injEq] at h; subst h; exact ⟨rfl, rfl⟩)

theorem fresh_reach {c : Cfg} {s : S} (h : Reach c s) : Fresh s.pool := by
  induction h with
  | init => exact fresh_init _
  | @step s s' l _ hs ih =>
    cases l with
    | pool l =>
      obtain ⟨_, p, t, h1, _, rfl⟩ := pool_step hs
      exact fresh_step ih h1
    | pass d => simp only [step, Option.some.injEq] at hs; subst hs; exact ih
    | fire =>
      simp only [step] at hs
      split at hs
      · simp only [Option.some.injEq] at hs; subst hs; exact ih
      · cases hs

theorem Prompt.reach {c : Cfg} {L : Nat} {s : S} (h : Prompt c L s) : Reach c s := by
  induction h with
  | init => exact .init
  | step l _ _ hs ih => exact ih.step l hs

theorem Roomy.prompt {c : Cfg} {L : Nat} {s : S} (h : Roomy c L s) : Prompt c L s := by
  induction h with
  | init => exact .init
  | step l _ h1 _ hs ih => exact ih.step l h1 hs

/-- The forwarding loop has events on deck and waits for more, or is about to. -/
def Waiting (s : S) : Prop :=
  0 < s.deck.cnt ∧ (s.pool.fwd = .idle ∨ (s.started = false ∧ (s.pool.fwd = .given ∨ ∃ e, s.pool.fwd = .added e)))

/-- The timer is set whenever there is something to wait for. -/
structure Set (c : Cfg) (s : S) : Prop where
  past : s.base ≤ s.now
  wake : Waiting s → s.chan = true ∨ s.due ≤ s.base + c.delay

theorem fwd_step {c : Eos.Cfg} {p p' : Eos.Pool} {l : Eos.Label} (h : Eos.step c p l = some p')
    (h1 : ∀ e, l ≠ .add e) (h2 : l ≠ .give) (h3 : l ≠ .check) (h4 : l ≠ .tick) (h5 : l ≠ .tryFlush) (h6 : l ≠ .forced)
    (h7 : l ≠ .swapIn) : p'.fwd = p.fwd ∧ p'.onDeck = p.onDeck ∧ ((p'.nodes p'.onDeck).cnt = (p.nodes p.onDeck).cnt ∨ (p'.nodes p'.onDeck).cnt = 0) := by
  have key : p'.fwd = p.fwd ∧ p'.onDeck = p.onDeck := by
    cases l <;> simp only [Eos.step] at h <;> (repeat' split at h) <;>
      first
      | (cases h; done)
      | (exact absurd rfl (h1 _))
      | (exact absurd rfl ‹_›)
      | (simp only [Option.some.injEq] at h; subst h; simp [produce_frame, relinquish_frame, Eos.beginCommit])
  refine ⟨key.1, key.2, ?_⟩
  rw [key.2]
  rcases cnt_step h p.onDeck with h0 | h0 | ⟨⟨e, h0⟩, _⟩
  · exact .inl h0
  · exact .inr h0
  · exact absurd h0 (h1 e)

/-- The steps of the forwarding loop. -/
inductive Moves (c : Eos.Cfg) (p p' : Eos.Pool) : Eos.Label → Prop where
  | add (e : Eos.Ev) : p.fwd = .idle → p'.fwd = .added e → (p'.nodes p'.onDeck).cnt = (p.nodes p.onDeck).cnt + 1 → Moves c p p' (.add e)
  | give (e : Eos.Ev) : p.fwd = .added e → p'.fwd = .given → (p'.nodes p'.onDeck).cnt = (p.nodes p.onDeck).cnt → Moves c p p' .give
  | check1 : p.fwd = .given → c.target ≤ (p.nodes p.onDeck).load → p'.fwd = .trying → (p'.nodes p'.onDeck).cnt = (p.nodes p.onDeck).cnt → Moves c p p' .check
  | check2 : p.fwd = .given → ¬ c.target ≤ (p.nodes p.onDeck).load → p'.fwd = .idle → (p'.nodes p'.onDeck).cnt = (p.nodes p.onDeck).cnt → Moves c p p' .check
  | tick : p.fwd = .idle → p'.fwd = .trying → (p'.nodes p'.onDeck).cnt = (p.nodes p.onDeck).cnt → Moves c p p' .tick
  | try1 : p.fwd = .trying → (p.nodes p.onDeck).load = c.max → p'.fwd = .force → Moves c p p' .tryFlush
  | try2 : p.fwd = .trying → ¬ (p.nodes p.onDeck).load = c.max → 0 < (p.nodes p.onDeck).cnt → p.cq.length < c.pending → p'.fwd = .swap → Moves c p p' .tryFlush
  | try3 : p.fwd = .trying → ¬ (p.nodes p.onDeck).load = c.max → 0 < (p.nodes p.onDeck).cnt → ¬ p.cq.length < c.pending → p'.fwd = .idle →
      (p'.nodes p'.onDeck).cnt = (p.nodes p.onDeck).cnt → Moves c p p' .tryFlush
  | try4 : p.fwd = .trying → ¬ (p.nodes p.onDeck).load = c.max → ¬ 0 < (p.nodes p.onDeck).cnt → p'.fwd = .idle →
      (p'.nodes p'.onDeck).cnt = (p.nodes p.onDeck).cnt → Moves c p p' .tryFlush
  | forced : p.fwd = .force → p'.fwd = .swap → Moves c p p' .forced
  | swapIn : p.fwd = .swap → p'.fwd = .idle → (p'.nodes p'.onDeck).cnt = 0 → Moves c p p' .swapIn
  | other (l : Eos.Label) : (∀ c s, timer c s l = some s) → l ≠ .tryFlush → l ≠ .tick → (∀ e, l ≠ .add e) → p'.fwd = p.fwd →
      ((p'.nodes p'.onDeck).cnt = (p.nodes p.onDeck).cnt ∨ (p'.nodes p'.onDeck).cnt = 0) → Moves c p p' l

theorem moves {c : Eos.Cfg} {p p' : Eos.Pool} {l : Eos.Label} (F : Fresh p) (h : Eos.step c p l = some p') : Moves c p p' l := by
  by_cases hl : (∀ e, l ≠ .add e) ∧ l ≠ .give ∧ l ≠ .check ∧ l ≠ .tick ∧ l ≠ .tryFlush ∧ l ≠ .forced ∧ l ≠ .swapIn
  · obtain ⟨h1, h2, h3, h4, h5, h6, h7⟩ := hl
    have := fwd_step h h1 h2 h3 h4 h5 h6 h7
    refine .other l ?_ h5 h4 h1 this.1 this.2.2
    intro c s
    cases l <;> first | rfl | exact absurd rfl (h1 _) | exact absurd rfl ‹_›
  · cases l <;> first | (exfalso; apply hl; simp; done) | skip
    all_goals
      simp only [Eos.step] at h
      repeat' split at h
    all_goals first
      | (cases h; done)
      | skip
    all_goals simp only [Option.some.injEq] at h
    all_goals subst h
    · exact .add _ ‹_› rfl (by simp [upd])
    · exact .give _ ‹_› rfl rfl
    · exact .give _ ‹_› rfl rfl
    · exact .check1 ‹_› ‹_› rfl rfl
    · exact .check2 ‹_› ‹_› rfl rfl
    · exact .tick ‹_› rfl rfl
    · exact .try1 ‹_› ‹_› rfl
    · exact .try2 ‹_› ‹_› ‹_› ‹_› rfl
    · exact .try3 ‹_› ‹_› ‹_› ‹_› rfl rfl
    · exact .try4 ‹_› ‹_› ‹_› rfl rfl
    · exact .forced ‹_› rfl
    · rename_i q free h1 h2
      exact .swapIn h1 rfl (F.empty q (by rw [h2]; exact List.mem_cons_self))

theorem set_reach {c : Cfg} {s : S} (h : Reach c s) : s.crashed = false → Set c s := by
  induction h with
  | init => exact fun _ => ⟨Nat.le_refl _, fun hw => absurd hw.1 (by simp [S.deck, S.init, Eos.Pool.init, Eos.Node.new])⟩
  | @step s s' l hr hs ih =>
    intro hc'
    cases l with
    | pass d =>
      simp only [step, Option.some.injEq] at hs; subst hs
      have I := ih hc'
      exact ⟨Nat.le_trans I.past (Nat.le_add_right _ _), I.wake⟩
    | fire =>
      simp only [step] at hs
      split at hs
      · simp only [Option.some.injEq] at hs; subst hs
        exact ⟨(ih hc').past, fun _ => .inl rfl⟩
      · cases hs
    | pool l =>
      obtain ⟨h0, p, t, h1, h2, rfl⟩ := pool_step hs
      have I := ih h0
      have hm := moves (fresh_reach hr) h1
      have ⟨tp, tn⟩ := timer_pool h2
      cases hm with
      | add e f1 f2 f3 =>
        simp only [timer, Option.some.injEq] at h2; subst h2
        refine ⟨I.past, ?_⟩
        rintro ⟨_, hw⟩
        simp only [f2, reduceCtorEq, false_or] at hw
        have hz : s.deck.cnt ≠ 0 := by simpa using hw.1
        exact I.wake ⟨Nat.pos_of_ne_zero hz, .inl f1⟩
      | give e f1 f2 f3 =>
        simp only [timer, Option.some.injEq] at h2; subst h2
        refine ⟨I.past, ?_⟩
        rintro ⟨g1, hw⟩
        simp only [f2, reduceCtorEq, false_or] at hw
        exact I.wake ⟨by simpa [S.deck, f3] using g1, .inr ⟨hw.1, .inr ⟨e, f1⟩⟩⟩
      | check1 f1 f2 f3 f4 =>
        simp only [timer] at h2
        rw [if_pos (show c.eos.target ≤ s.deck.load from f2)] at h2
        simp only [Option.some.injEq] at h2; subst h2
        refine ⟨I.past, ?_⟩
        rintro ⟨_, hw⟩
        simp [f3] at hw
      | check2 f1 f2 f3 f4 =>
        simp only [timer] at h2
        rw [if_neg (show ¬ c.eos.target ≤ s.deck.load from f2)] at h2
        split at h2
        · simp only [Option.some.injEq] at h2; subst h2
          simp only [S.reset] at hc' ⊢
          split at hc'
          · simp at hc'
          · rename_i hd
            simp only [if_neg hd]
            exact ⟨Nat.le_refl _, fun _ => .inr (Nat.le_refl _)⟩
        · rename_i hst
          simp only [Option.some.injEq] at h2; subst h2
          refine ⟨I.past, ?_⟩
          rintro ⟨g1, _⟩
          exact I.wake ⟨by simpa [S.deck, f4] using g1, .inr ⟨by simpa using hst, .inl f1⟩⟩
      | tick f1 f2 f3 =>
        simp only [timer] at h2
        split at h2
        · simp only [Option.some.injEq] at h2; subst h2
          refine ⟨I.past, ?_⟩
          rintro ⟨_, hw⟩
          simp [f2] at hw
        · cases h2
      | try1 f1 f2 f3 =>
        simp only [timer] at h2
        rw [if_pos (show ({ s with base := s.now, tried := true } : S).deck.load = c.eos.max from f2)] at h2
        simp only [Option.some.injEq] at h2; subst h2
        refine ⟨Nat.le_refl _, ?_⟩
        rintro ⟨_, hw⟩
        simp [f3] at hw
      | try2 f1 f2 f3 f4 f5 =>
        simp only [timer] at h2
        rw [if_neg (show ¬ ({ s with base := s.now, tried := true } : S).deck.load = c.eos.max from f2),
          if_pos (show 0 < ({ s with base := s.now, tried := true } : S).deck.cnt from f3), if_pos f4] at h2
        simp only [Option.some.injEq] at h2; subst h2
        refine ⟨Nat.le_refl _, ?_⟩
        rintro ⟨_, hw⟩
        simp [f5] at hw
      | try3 f1 f2 f3 f4 f5 f6 =>
        simp only [timer] at h2
        rw [if_neg (show ¬ ({ s with base := s.now, tried := true } : S).deck.load = c.eos.max from f2),
          if_pos (show 0 < ({ s with base := s.now, tried := true } : S).deck.cnt from f3), if_neg f4] at h2
        simp only [Option.some.injEq] at h2; subst h2
        simp only [S.reset] at hc' ⊢
        split at hc'
        · simp at hc'
        · rename_i hd
          simp only [if_neg hd]
          exact ⟨Nat.le_refl _, fun _ => .inr (Nat.le_refl _)⟩
      | try4 f1 f2 f3 f4 f5 =>
        simp only [timer] at h2
        rw [if_neg (show ¬ ({ s with base := s.now, tried := true } : S).deck.load = c.eos.max from f2),
          if_neg (show ¬ 0 < ({ s with base := s.now, tried := true } : S).deck.cnt from f3)] at h2
        simp only [Option.some.injEq] at h2; subst h2
        refine ⟨Nat.le_refl _, ?_⟩
        rintro ⟨g1, _⟩
        simp only [S.deck, f5] at g1
        exact absurd g1 f3
      | forced f1 f2 =>
        simp only [timer, Option.some.injEq] at h2; subst h2
        refine ⟨I.past, ?_⟩
        rintro ⟨_, hw⟩
        simp [f2] at hw
      | swapIn f1 f2 f3 =>
        simp only [timer, Option.some.injEq] at h2; subst h2
        refine ⟨I.past, ?_⟩
        rintro ⟨g1, _⟩
        simp [S.deck, f3] at g1
      | other _ g0 _ _ _ f2 f3 =>
        rw [g0] at h2
        simp only [Option.some.injEq] at h2; subst h2
        refine ⟨I.past, ?_⟩
        rintro ⟨g1, hw⟩
        refine I.wake ⟨?_, by simpa only [f2] using hw⟩
        simp only [S.deck] at g1 ⊢
        rcases f3 with f3 | f3 <;> rw [f3] at g1
        · exact g1
        · exact absurd g1 (by simp)

end Verif.Delay
