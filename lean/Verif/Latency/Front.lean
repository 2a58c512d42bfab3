import Verif.Latency.Spec
import Verif.Deadline.Queue
import Verif.Eos.Proofs
/-
Until a transaction is put in the commit queue.
-/
namespace Verif.Latency
open Verif.Deadline (txnTimeout Turns turns_of)

theorem step_eq {c : Delay.Cfg} {s s' : S} {l : Delay.Label} (h : step c s l = some s') :
    Deadline.step c s.d l = some s'.d ∧
    (∀ e, l = .pool (.add e) → s'.came = Eos.upd s.came e.id s.now ∧
      s'.born = if s.d.d.deck.cnt = 0 then Eos.upd s.born s.pool.gen s.now else s.born) ∧
    ((∀ e, l ≠ .pool (.add e)) → s'.came = s.came ∧ s'.born = s.born) ∧
    s'.forced = (if l = .pool .tryFlush then s.now else s.forced) ∧
    s'.room = (if l = .pool .tryFlush ∨ (l = .pool .take ∧ ¬ s.pool.cq.length < c.eos.pending) then s.now else s.room) := by
  simp only [step, Option.map_eq_some_iff] at h
  obtain ⟨d, h1, rfl⟩ := h
  refine ⟨h1, ?_, ?_, rfl, rfl⟩
  · rintro e rfl; exact ⟨rfl, rfl⟩
  · intro h
    constructor <;> (split <;> first | exact absurd rfl (h _) | rfl)

theorem Prompt.deadline {c : Delay.Cfg} {L : Nat} {s : S} (h : Prompt c L s) : Deadline.Prompt c L s.d := by
  induction h with
  | init => exact .init
  | step l _ _ hp hs ih => exact ih.step l (fun d hd => (hp d hd).1) (step_eq hs).1

theorem Prompt.eos {c : Delay.Cfg} {L : Nat} {s : S} (h : Prompt c L s) : Eos.Reach c.eos s.pool := by
  induction h with
  | init => exact .init
  | @step s s' l _ hl _ hs ih =>
    obtain ⟨d, h1, h2⟩ := Deadline.step_eq (step_eq hs).1
    rw [S.pool, h2]
    cases l with
    | pass d => simp only [Delay.step, Option.some.injEq] at h1; subst h1; exact ih
    | fire =>
      simp only [Delay.step] at h1
      split at h1
      · simp only [Option.some.injEq] at h1; subst h1; exact ih
      · cases h1
    | pool l =>
      obtain ⟨_, p, t, g1, _, rfl⟩ := Delay.pool_step h1
      exact ih.step l (by rintro rfl; exact hl rfl) g1

/-- What a step of the pool does to the places of transactions. -/
inductive Kind (c : Eos.Cfg) (p p' : Eos.Pool) : Eos.Label → Prop where
  | add (e : Eos.Ev) : p.fwd = .idle → p'.fwd = .added e → p'.gen = p.gen → p'.added = p.added ++ [(e, p.gen)] → p'.cq = p.cq → p'.com = p.com →
      e.id ∉ p.added.map (fun a => a.1.id) → Kind c p p' (.add e)
  | push (l : Eos.Label) : (l = .tryFlush ∧ p.fwd = .trying ∨ l = .forced ∧ p.fwd = .force) → p'.fwd = .swap → p'.gen = p.gen → p'.added = p.added →
      p.cq.length < c.pending → p'.cq = p.cq ++ [p.onDeck] → p'.com = p.com → p'.nodes = p.nodes → p'.onDeck = p.onDeck → Kind c p p' l
  | swapIn : p.fwd = .swap → p'.fwd = .idle → p'.gen = p.gen + 1 → p'.added = p.added → p'.cq = p.cq → p'.com = p.com → Kind c p p' .swapIn
  | take (q : Nat) : p.com = .idle → p.cq = q :: p'.cq → p'.com = .begun q → p'.fwd = p.fwd → p'.gen = p.gen → p'.added = p.added → Kind c p p' .take
  | loop (l : Eos.Label) : (l = .give ∨ l = .check ∨ l = .tick ∨ l = .tryFlush ∧ p.fwd = .trying ∧ p'.nodes = p.nodes ∧ p'.onDeck = p.onDeck) →
      p.fwd ≠ .swap → p'.fwd ≠ .swap → p'.gen = p.gen → p'.added = p.added →
      p'.cq = p.cq → p'.com = p.com → Kind c p p' l
  | rest (l : Eos.Label) : (∀ e, l ≠ .add e) → l ≠ .take → l ≠ .tryFlush → l ≠ .forced → p'.fwd = p.fwd → p'.gen = p.gen → p'.added = p.added →
      p'.cq = p.cq → (Deadline.busyWith p'.com = none ∨ Deadline.busyWith p'.com = Deadline.busyWith p.com) → Kind c p p' l

theorem kind_of {c : Eos.Cfg} {p p' : Eos.Pool} {l : Eos.Label} (h : Eos.step c p l = some p') : Kind c p p' l := by
  have hpr : ∀ (s : Eos.Pool) (q tp : Nat) (r : Eos.Rec), (Eos.produce s q tp r).gen = s.gen ∧ (Eos.produce s q tp r).added = s.added := by
    intro s q tp r; unfold Eos.produce; simp only; split <;> exact ⟨rfl, rfl⟩
  have hre : ∀ (n : Nat) (s : Eos.Pool) (q tp : Nat), (Eos.relinquish n s q tp).gen = s.gen ∧ (Eos.relinquish n s q tp).added = s.added := by
    intro n s q tp; unfold Eos.relinquish; simp only; split <;> exact ⟨rfl, rfl⟩
  cases l <;> simp only [Eos.step] at h <;> (repeat' split at h) <;>
    first
    | (cases h; done)
    | (simp only [Option.some.injEq] at h; subst h; first
        | exact .add _ ‹_› rfl rfl rfl rfl rfl ‹_›
        | exact .push _ (by simp [*]) rfl rfl rfl ‹_› rfl rfl rfl rfl
        | exact .swapIn ‹_› rfl rfl rfl rfl rfl
        | exact .take _ ‹_› ‹_› rfl rfl rfl rfl
        | (refine .loop _ ?_ ?_ ?_ rfl rfl rfl rfl <;> simp [*]; done)
        | exact .rest _ (by simp) (by simp) (by simp) (by simp) (by simp [Delay.produce_frame, Delay.relinquish_frame, Eos.beginCommit]) (by simp [hpr, hre, Eos.beginCommit])
            (by simp [hpr, hre, Eos.beginCommit]) (by simp [Delay.produce_frame, Delay.relinquish_frame, Eos.beginCommit])
            (by simp [Deadline.busyWith, Delay.produce_frame, *]))

theorem timer_first {c : Delay.Cfg} {s t : Delay.S} {l : Eos.Label} (h : Delay.timer c s l = some t) (hl : ∀ e, l ≠ .add e) : t.first = s.first := by
  cases l <;> simp only [Delay.timer, Delay.S.reset] at h <;> (repeat' split at h) <;>
    first
    | (cases h; done)
    | exact absurd rfl (hl _)
    | (simp only [Option.some.injEq] at h; subst h; rfl)

theorem timer_since {c : Delay.Cfg} {s t : Delay.S} {l : Eos.Label} (h : Delay.timer c s l = some t) (hl : ∀ e, l ≠ .add e) (ht : l ≠ .tick) :
    t.since = s.since := by
  cases l <;> simp only [Delay.timer, Delay.S.reset] at h <;> (repeat' split at h) <;>
    first
    | (cases h; done)
    | exact absurd rfl (hl _)
    | exact absurd rfl ht
    | (simp only [Option.some.injEq] at h; subst h; rfl)

/-- How old a transaction on deck can get (`C99`). -/
def deckAge (c : Delay.Cfg) (L : Nat) : Nat := 2 * c.delay + txnTimeout + 10 * L

/-- A transaction timeout and the delays of the commit loop. -/
def turn (L : Nat) : Nat := txnTimeout + 4 * L

/-- The transaction on deck, until it is put in the queue. -/
structure Front (c : Delay.Cfg) (L : Nat) (s : S) : Prop where
  born : 0 < s.d.d.deck.cnt → s.pool.fwd ≠ .swap → s.born s.pool.gen = s.d.d.first
  busy : 0 < s.d.d.deck.cnt → Delay.Busy s.d.d → s.d.d.since ≤ s.d.d.first + deckAge c L
  force : 0 < s.d.d.deck.cnt → s.pool.fwd = .force → s.forced ≤ s.d.d.first + deckAge c L + L
  full : s.pool.fwd = .force → ¬ s.pool.cq.length < c.eos.pending → s.d.work ≤ s.forced
  room : s.pool.fwd = .force → s.pool.cq.length < c.eos.pending → s.room ≤ s.forced + turn L ∧ s.now ≤ s.room + L

theorem deck_now {c : Delay.Cfg} (hd : 0 < c.delay) (hp : 0 < c.eos.pending) {L : Nat} {s : S} (h : Prompt c L s)
    (hs : s.pool.com ≠ .stopped) (hi : s.pool.fwd = .idle) (hn : 0 < s.d.d.deck.cnt) : s.now ≤ s.d.d.first + deckAge c L := by
  have := Deadline.deck_bound hd hp h.deadline hs hi hn
  simp only [deckAge, S.now]; omega

theorem front_prompt {c : Delay.Cfg} (hd : 0 < c.delay) (hp : 0 < c.eos.pending) {L : Nat} {s : S} (h : Prompt c L s) :
    s.pool.com ≠ .stopped → Front c L s := by
  induction h with
  | init =>
    intro _
    refine ⟨?_, ?_, ?_, ?_, ?_⟩
    · intro h; simp [S.init, Deadline.S.init, Delay.S.init, Delay.S.deck, Eos.Pool.init, Eos.Node.new] at h
    · intro h; simp [S.init, Deadline.S.init, Delay.S.init, Delay.S.deck, Eos.Pool.init, Eos.Node.new] at h
    · intro _ h; cases h
    · intro h; cases h
    · intro h; cases h
  | @step s s' l hr hl hpr hs ih =>
    intro hst
    obtain ⟨e1, e2, e3, e4, e5⟩ := step_eq hs
    have hst0 := Deadline.stopped_stays e1 hst
    have I := ih hst0
    have C := Deadline.com_prompt hr.deadline
    have D := hr.deadline.delay
    have hcr := Delay.no_crash hd D.reach
    have K := Delay.clock_prompt D hcr
    have full_nf : ¬ s.pool.cq.length < c.eos.pending → s.pool.cq ≠ [] := by
      intro h h2; rw [h2] at h; exact h (by simpa using hp)
    obtain ⟨d, h1, h2⟩ := Deadline.step_eq e1
    cases l with
    | pass k =>
      simp only [Delay.step, Option.some.injEq] at h1; subst h1
      obtain ⟨f1, f2⟩ := e3 (by simp)
      simp only [reduceCtorEq, if_false, false_and, or_self] at e4 e5
      obtain ⟨p1, p2⟩ := hpr k rfl
      have hpool : s'.pool = s.pool := by rw [S.pool, h2]
      have hdeck : s'.d.d.deck = s.d.d.deck := by rw [h2]; rfl
      have hsi : s'.d.d.since = s.d.d.since := by rw [h2]
      have hfi : s'.d.d.first = s.d.d.first := by rw [h2]
      have hno : s'.now = s.now + k := by rw [S.now, h2]
      refine ⟨?_, ?_, ?_, ?_, ?_⟩
      · rw [hdeck, hpool, f2, hfi]; exact I.born
      · rw [hdeck, hsi, hfi]; intro a b; exact I.busy a (by simpa only [Delay.Busy, ← hpool] using b)
      · rw [hdeck, hpool, hfi, e4]; exact I.force
      · rw [hpool, e4]
        intro a b
        rw [Deadline.work_step e1 (Deadline.not_free (.inr (full_nf b)))]
        simpa using I.full a b
      · rw [hpool, e4, e5, hno]; intro a b; exact ⟨(I.room a b).1, p2 a b⟩
    | fire =>
      simp only [Delay.step] at h1
      split at h1
      · simp only [Option.some.injEq] at h1; subst h1
        obtain ⟨f1, f2⟩ := e3 (by simp)
        simp only [reduceCtorEq, if_false, false_and, or_self] at e4 e5
        have hpool : s'.pool = s.pool := by rw [S.pool, h2]
        have hdeck : s'.d.d.deck = s.d.d.deck := by rw [h2]; rfl
        have hsi : s'.d.d.since = s.d.d.since := by rw [h2]
        have hfi : s'.d.d.first = s.d.d.first := by rw [h2]
        have hno : s'.now = s.now := by rw [S.now, h2]
        refine ⟨?_, ?_, ?_, ?_, ?_⟩
        · rw [hdeck, hpool, f2, hfi]; exact I.born
        · rw [hdeck, hsi, hfi]; intro a b; exact I.busy a (by simpa only [Delay.Busy, ← hpool] using b)
        · rw [hdeck, hpool, hfi, e4]; exact I.force
        · rw [hpool, e4]
          intro a b
          rw [Deadline.work_step e1 (Deadline.not_free (.inr (full_nf b)))]
          simpa using I.full a b
        · rw [hpool, e4, e5, hno]; exact I.room
      · cases h1
    | pool l =>
      obtain ⟨h0, p', t, g2, g3, rfl⟩ := Delay.pool_step h1
      have ⟨tp, tn⟩ := Delay.timer_pool g3
      have hpool : s'.pool = p' := by rw [S.pool, h2]
      have hdeck : s'.d.d.deck = p'.nodes p'.onDeck := by rw [h2]; rfl
      have hsi : s'.d.d.since = t.since := by rw [h2]
      have hfi : s'.d.d.first = t.first := by rw [h2]
      have hno : s'.now = s.now := by rw [S.now, h2]; exact tn
      have hm := Delay.moves (Delay.fresh_reach D.reach) g2
      have hk := kind_of g2
      have hgen : l ≠ .swapIn → p'.gen = s.pool.gen := by
        intro h; cases hk <;> first | exact absurd rfl h | assumption
      have hnadd : (∀ e, l ≠ .add e) → s'.born = s.born ∧ t.first = s.d.d.first := by
        intro h
        exact ⟨(e3 (fun e he => by cases he; exact h e rfl)).2, timer_first g3 h⟩
      have keepb : (∀ e, l ≠ .add e) → l ≠ .swapIn → s.pool.fwd ≠ .swap → ((p'.nodes p'.onDeck).cnt = s.d.d.deck.cnt ∨ (p'.nodes p'.onDeck).cnt = 0) →
          0 < (p'.nodes p'.onDeck).cnt → s'.born p'.gen = t.first := by
        intro a1 a2 a3 a4 a5
        rw [(hnadd a1).1, (hnadd a1).2, hgen a2]
        exact I.born (by omega) a3
      refine ⟨?_, ?_, ?_, ?_, ?_⟩
      · -- born
        rw [hdeck, hpool, hfi]
        intro a b
        cases hm with
        | add e f1 f2 f3 =>
          have := (e2 e rfl).2
          simp only [Delay.timer, Option.some.injEq] at g3; subst g3
          rw [this, hgen (by simp)]
          by_cases hz : s.d.d.deck.cnt = 0
          · simp only [hz, if_true, Eos.upd_same]
          · simp only [hz, if_false]
            exact I.born (by omega) (by simp [f1])
        | swapIn f1 f2 f3 => omega
        | give e f1 f2 f3 => exact keepb (by simp) (by simp) (by simp [f1]) (.inl f3) a
        | check1 f1 f2 f3 f4 | check2 f1 f2 f3 f4 => exact keepb (by simp) (by simp) (by simp [f1]) (.inl f4) a
        | tick f1 f2 f3 => exact keepb (by simp) (by simp) (by simp [f1]) (.inl f3) a
        | try1 f1 f2 f3 =>
          cases hk with
          | push _ _ k1 => exact absurd k1 b
          | loop _ k1 k2 k3 =>
            simp only [reduceCtorEq, false_or, true_and] at k1
            exact keepb (by simp) (by simp) (by simp [f1]) (.inl (by rw [k1.2.1, k1.2.2]; rfl)) a
          | rest _ _ _ k1 => exact absurd rfl k1
        | try2 f1 f2 f3 f4 f5 => exact absurd f5 b
        | try3 f1 f2 f3 f4 f5 f6 => exact keepb (by simp) (by simp) (by simp [f1]) (.inl f6) a
        | try4 f1 f2 f3 f4 f5 => exact keepb (by simp) (by simp) (by simp [f1]) (.inl f5) a
        | forced f1 f2 => exact absurd f2 b
        | other _ f1 f2 f3 f4 f5 f6 =>
          by_cases hw : l = .swapIn
          · subst hw
            cases hk with
            | swapIn k1 k2 => rw [f5, k1] at k2; cases k2
            | push _ k1 => simp at k1
            | loop _ k1 => simp at k1
            | rest _ _ _ _ _ k1 k2 =>
              simp only [Eos.step] at g2
              split at g2
              · rename_i hh _; exact absurd hh (by rw [← f5]; exact b)
              · cases g2
          · exact keepb f4 hw (by rw [← f5]; exact b) f6 a
      · -- busy
        rw [hdeck, hsi, hfi]
        intro a b
        have b : p'.fwd ≠ .idle ∧ p'.fwd ≠ .force ∧ p'.fwd ≠ .swap := by rw [← hpool]; exact b
        have keepc : (∀ e, l ≠ .add e) → l ≠ .tick → Delay.Busy s.d.d → 0 < s.d.d.deck.cnt → t.since ≤ t.first + deckAge c L := by
          intro a1 a2 a3 a4
          rw [timer_first g3 a1, timer_since g3 a1 a2]
          exact I.busy a4 a3
        cases hm with
        | add e f1 f2 f3 =>
          simp only [Delay.timer, Option.some.injEq] at g3; subst g3
          by_cases hz : s.d.d.deck.cnt = 0
          · simp only [hz, if_true]; omega
          · simp only [hz, if_false]; exact deck_now hd hp hr hst0 f1 (by omega)
        | swapIn f1 f2 f3 => omega
        | give e f1 f2 f3 => exact keepc (by simp) (by simp) (by simp [Delay.Busy, f1]) (by simpa only [Delay.S.deck, f3] using a)
        | check1 f1 f2 f3 f4 => exact keepc (by simp) (by simp) (by simp [Delay.Busy, f1]) (by simpa only [Delay.S.deck, f4] using a)
        | check2 f1 f2 f3 f4 => exact absurd f3 b.1
        | tick f1 f2 f3 =>
          simp only [Delay.timer] at g3
          split at g3
          · simp only [Option.some.injEq] at g3; subst g3
            exact deck_now hd hp hr hst0 f1 (by rw [f3] at a; exact a)
          · cases g3
        | try1 f1 f2 f3 => exact absurd f3 b.2.1
        | try2 f1 f2 f3 f4 f5 => exact absurd f5 b.2.2
        | try3 f1 f2 f3 f4 f5 f6 => exact absurd f5 b.1
        | try4 f1 f2 f3 f4 f5 => exact absurd f4 b.1
        | forced f1 f2 => exact absurd f2 b.2.2
        | other _ f1 f2 f3 f4 f5 f6 =>
          exact keepc f4 f3 (by rw [f5] at b; exact b) (f6.elim (fun h => by rw [h] at a; exact a) (fun h => by omega))
      · -- force
        rw [hdeck, hpool, hfi, e4]
        intro a b
        cases hm with
        | try1 f1 f2 f3 =>
          rw [if_pos rfl, timer_first g3 (by simp)]
          have hc : 0 < s.d.d.deck.cnt := by
            cases hk with
            | push _ _ k1 => rw [k1] at b; cases b
            | loop _ k1 k2 k3 =>
              simp only [reduceCtorEq, false_or, true_and] at k1
              rw [k1.2.1, k1.2.2] at a; exact a
            | rest _ _ _ k1 => exact absurd rfl k1
          have hb : Delay.Busy s.d.d := by simp [Delay.Busy, f1]
          have := I.busy hc hb
          have := K.busy hb
          simp only [S.now]; omega
        | other _ f1 f2 f3 f4 f5 f6 =>
          rw [if_neg (by simpa using f2), timer_first g3 f4]
          exact I.force (f6.elim (fun h => by rw [h] at a; exact a) (fun h => by omega)) (by rw [← f5]; exact b)
        | add e f1 f2 => rw [f2] at b; cases b
        | give e f1 f2 | swapIn f1 f2 | tick f1 f2 | forced f1 f2 => rw [f2] at b; cases b
        | check1 f1 f2 f3 | check2 f1 f2 f3 => rw [f3] at b; cases b
        | try2 f1 f2 f3 f4 f5 | try3 f1 f2 f3 f4 f5 => rw [f5] at b; cases b
        | try4 f1 f2 f3 f4 => rw [f4] at b; cases b
      · -- full
        rw [hpool, e4]
        intro a b
        have hcap := C.cap
        cases hk with
        | add _ _ k => rw [k] at a; cases a
        | push _ _ k => rw [k] at a; cases a
        | swapIn _ k => rw [k] at a; cases a
        | take q k1 k2 k3 =>
          exfalso
          have : s.d.d.pool.cq = q :: p'.cq := k2
          rw [this, List.length_cons] at hcap
          omega
        | loop _ k1 k2 k3 k4 k5 k6 =>
          rw [k6] at b
          rw [Deadline.work_step e1 (Deadline.not_free (.inr (full_nf b)))]
          rcases k1 with rfl | rfl | rfl | ⟨rfl, _⟩
          · cases hm with
            | give _ _ f => rw [f] at a; cases a
            | other _ _ _ _ _ f => rw [f] at a; simpa using I.full a b
          · cases hm with
            | check1 _ _ f | check2 _ _ f => rw [f] at a; cases a
            | other _ _ _ _ _ f => rw [f] at a; simpa using I.full a b
          · cases hm with
            | tick _ f => rw [f] at a; cases a
            | other _ _ _ f => exact absurd rfl f
          · simp only [if_true, Delay.Label.pool.injEq, reduceCtorEq, if_false]
            exact C.past.1
        | rest _ k1 k2 k3 k4 k5 k6 k7 k8 =>
          rw [k8] at b
          rw [Deadline.work_step e1 (Deadline.not_free (.inr (full_nf b))), if_neg (by simpa using k2), if_neg (by simpa using k3)]
          exact I.full (by rw [← k5]; exact a) b
      · -- room
        rw [hpool, e4, e5, hno]
        intro a b
        cases hk with
        | add _ _ k => rw [k] at a; cases a
        | push _ _ k => rw [k] at a; cases a
        | swapIn _ k => rw [k] at a; cases a
        | take q k1 k2 k3 k4 =>
          have a' : s.pool.fwd = .force := k4 ▸ a
          simp only [Delay.Label.pool.injEq, reduceCtorEq, if_false, false_or, true_and]
          by_cases hf : s.pool.cq.length < c.eos.pending
          · rw [if_neg (by simpa using hf)]; exact I.room a' hf
          · rw [if_pos hf]
            have h1 := I.full a' hf
            have h2 := Deadline.work_bound C hst0 (.inr (full_nf hf))
            simp only [turn, S.now]
            omega
        | loop _ k1 k2 k3 k4 k5 k6 =>
          rw [k6] at b
          rcases k1 with rfl | rfl | rfl | ⟨rfl, _⟩
          · cases hm with
            | give _ _ f => rw [f] at a; cases a
            | other _ _ _ _ _ f => rw [f] at a; simpa using I.room a b
          · cases hm with
            | check1 _ _ f | check2 _ _ f => rw [f] at a; cases a
            | other _ _ _ _ _ f => rw [f] at a; simpa using I.room a b
          · cases hm with
            | tick _ f => rw [f] at a; cases a
            | other _ _ _ f => exact absurd rfl f
          · simp only [if_true, true_or]; exact ⟨by omega, by omega⟩
        | rest _ k1 k2 k3 k4 k5 k6 k7 k8 =>
          rw [k8] at b
          rw [if_neg (by rintro (h | h) <;> simp_all), if_neg (by simpa using k3)]
          exact I.room (by rw [← k5]; exact a) b

/-- How old a transaction is when it is put in the queue. -/
def frontAge (c : Delay.Cfg) (L : Nat) : Nat := deckAge c L + turn L + 2 * L

theorem front_bound {c : Delay.Cfg} (hd : 0 < c.delay) (hp : 0 < c.eos.pending) {L : Nat} {s : S} (h : Prompt c L s)
    (hs : s.pool.com ≠ .stopped) (hc : 0 < s.d.d.deck.cnt) (hw : s.pool.fwd ≠ .swap) : s.now ≤ s.born s.pool.gen + frontAge c L := by
  have I := front_prompt hd hp h hs
  have C := Deadline.com_prompt h.deadline
  rw [I.born hc hw]
  simp only [frontAge, turn, S.now]
  by_cases h1 : s.pool.fwd = .idle
  · have := deck_now hd hp h hs h1 hc
    simp only [S.now] at this; omega
  · by_cases h2 : s.pool.fwd = .force
    · have f1 := I.force hc h2
      by_cases h3 : s.pool.cq.length < c.eos.pending
      · have := I.room h2 h3
        simp only [S.now, turn] at this; omega
      · have f2 := I.full h2 h3
        have f3 := Deadline.work_bound C hs (.inr (by intro h4; rw [S.pool, h4] at h3; exact h3 (by simpa using hp)))
        omega
    · have hb : Delay.Busy s.d.d := ⟨h1, h2, hw⟩
      have := I.busy hc hb
      have := (Delay.clock_prompt h.deadline.delay (Delay.no_crash hd h.deadline.delay.reach)).busy hb
      omega

end Verif.Latency
