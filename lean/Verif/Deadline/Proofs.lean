import Verif.Deadline.Spec
import Verif.Delay.Idle
/-
How long a transaction stays on deck when the queue is full.
-/
namespace Verif.Deadline
open Verif.Eos (upd upd_same upd_ne)
open Verif.Delay (Waiting)

theorem step_eq {c : Delay.Cfg} {s s' : S} {l : Delay.Label} (h : step c s l = some s') :
    ∃ d, Delay.step c s.d l = some d ∧ s' =
    { d := d
      dead := fun q => if (d.pool.nodes q).opened && !(s.d.pool.nodes q).opened then s.d.now + txnTimeout else s.dead q
      work := if l = .pool .take then s.d.now else if s.free then d.now else s.work
      stage := if turns l then s.d.now else if s.free then d.now else s.stage
      failed := if l = .pool .tryFlush then (if s.d.tried then s.failed else s.d.now) else s.failed } := by
  simp only [step, Option.map_eq_some_iff] at h
  obtain ⟨d, h1, h2⟩ := h
  exact ⟨d, h1, h2.symm⟩

theorem Prompt.delay {c : Delay.Cfg} {L : Nat} {s : S} (h : Prompt c L s) : Delay.Prompt c L s.d := by
  induction h with
  | init => exact .init
  | step l _ hp hs ih =>
    obtain ⟨d, h1, rfl⟩ := step_eq hs
    exact ih.step l (fun d hd => (hp d hd).1) h1

/-- What a step of the pool does to the commit loop and the queue. -/
inductive Turns (c : Eos.Cfg) (p p' : Eos.Pool) : Eos.Label → Prop where
  | push (l : Eos.Label) : turns (.pool l) = false → l ≠ .take → p'.com = p.com → p.cq.length < c.pending → p'.cq = p.cq ++ [p.onDeck] → p'.fwd = .swap → Turns c p p' l
  | take (q : Nat) : p.com = .idle → p.cq = q :: p'.cq → p'.com = .begun q → p'.fwd = p.fwd → Turns c p p' .take
  | begin (o : List Nat) (q : Nat) : p.com = .begun q → p'.com = .fin q [] false o → p'.cq = p.cq → (p'.nodes q).opened = true → Turns c p p' (.beginCommit o)
  | wait (q : Nat) (a b : List Eos.Ev) (f g : Bool) (x y : List Nat) : p.com = .fin q a f x → p'.com = .fin q b g y → p'.cq = p.cq → Turns c p p' .wait
  | ends (o : List Nat) (q : Nat) (a : List Eos.Ev) (f : Bool) (x : List Nat) : p.com = .fin q a f x → p'.com = .relinq q o → p'.cq = p.cq → Turns c p p' (.endTxn o)
  | more (q : Nat) (x y : List Nat) : p.com = .relinq q x → p'.com = .relinq q y → p'.cq = p.cq → Turns c p p' .release
  | clear (q : Nat) (x : List Nat) : p.com = .relinq q x → p'.com = .back q → p'.cq = p.cq → Turns c p p' .release
  | back (q : Nat) : p.com = .back q → p'.com = .idle → p'.cq = p.cq → Turns c p p' .giveBack
  | fail (b : Bool) (q : Nat) (a : List Eos.Ev) (f : Bool) (x : List Nat) : p.com = .fin q a f x → (p'.com = .idle ∨ p'.com = .stopped) → p'.cq = p.cq → Turns c p p' (.commitFail b)
  | stop : p.com = .idle → p'.com = .stopped → p'.cq = p.cq → Turns c p p' .asyncFail
  | other (l : Eos.Label) : turns (.pool l) = false → l ≠ .take → p'.com = p.com → p'.cq = p.cq → Turns c p p' l

theorem turns_of {c : Eos.Cfg} {p p' : Eos.Pool} {l : Eos.Label} (h : Eos.step c p l = some p') : Turns c p p' l := by
  cases l <;> simp only [Eos.step] at h <;> (repeat' split at h) <;>
    first
    | (cases h; done)
    | (simp only [Option.some.injEq] at h; subst h; first
        | exact .push _ rfl (by simp) rfl ‹_› rfl rfl
        | exact .take _ ‹_› ‹_› rfl rfl
        | exact .begin _ _ ‹_› rfl rfl (by simp [Eos.beginCommit, upd])
        | exact .wait _ _ _ _ _ _ _ ‹_› rfl (by simp [Delay.produce_frame])
        | exact .ends _ _ _ _ _ ‹_› rfl rfl
        | exact .more _ _ _ ‹_› rfl (by simp [Delay.relinquish_frame])
        | exact .clear _ _ ‹_› rfl rfl
        | exact .back _ ‹_› rfl rfl
        | exact .fail _ _ _ _ _ ‹_› (by first | exact .inl rfl | exact .inr rfl) rfl
        | exact .stop ‹_› rfl rfl
        | exact .other _ rfl (by simp) (by simp [Delay.produce_frame]) (by simp [Delay.produce_frame]))

theorem produce_opened (s : Eos.Pool) (p tp : Nat) (r : Eos.Rec) (q : Nat) (h : (s.nodes q).opened = true) :
    ((Eos.produce s p tp r).nodes q).opened = true := by
  unfold Eos.produce; simp only
  split <;> · by_cases hq : q = p <;> simp_all [upd]

/-- A context stays until the transaction is over. -/
theorem opened_stays {c : Eos.Cfg} {p p' : Eos.Pool} {l : Eos.Label} (h : Eos.step c p l = some p') {q : Nat}
    {a : List Eos.Ev} {f : Bool} {x : List Nat} (hf : p.com = .fin q a f x) (ho : (p.nodes q).opened = true) :
    (p'.nodes q).opened = true := by
  cases l <;> simp only [Eos.step] at h <;> (repeat' split at h) <;>
    first
    | (cases h; done)
    | (simp only [Option.some.injEq] at h; subst h; first
        | exact ho
        | exact produce_opened _ _ _ _ _ ho
        | (simp_all; done)
        | (by_cases hq : q = p.onDeck <;> simp_all [upd]))

/-- The bounds of the commit loop. -/
structure Com (c : Delay.Cfg) (L : Nat) (s : S) : Prop where
  cap : s.d.pool.cq.length ≤ c.eos.pending
  dead : ∀ q, (s.d.pool.nodes q).opened = true → s.dead q ≤ s.d.now + txnTimeout
  past : s.work ≤ s.d.now ∧ s.stage ≤ s.d.now
  begun : ∀ p, s.d.pool.com = .begun p → s.stage = s.work ∧ s.d.now ≤ s.stage + L
  fin : ∀ p a f x, s.d.pool.com = .fin p a f x → (s.d.pool.nodes p).opened = true ∧ s.dead p ≤ s.work + L + txnTimeout ∧
    s.stage ≤ s.work + L ∧ s.d.now ≤ max (s.dead p) s.stage + L
  relinq : ∀ p x, s.d.pool.com = .relinq p x → s.stage ≤ s.work + txnTimeout + 2 * L ∧ s.d.now ≤ s.stage + L
  back : ∀ p, s.d.pool.com = .back p → s.stage ≤ s.work + txnTimeout + 2 * L ∧ s.d.now ≤ s.stage + L
  idle : s.d.pool.com = .idle → s.d.pool.cq ≠ [] → s.stage ≤ s.work + txnTimeout + 3 * L ∧ s.d.now ≤ s.stage + L

theorem com_init (c : Delay.Cfg) (L : Nat) : Com c L (S.init c) := by
  refine ⟨Nat.zero_le _, ?_, ⟨Nat.le_refl _, Nat.le_refl _⟩, ?_, ?_, ?_, ?_, ?_⟩
  · intro q h; simp [S.init, Delay.S.init, Eos.Pool.init, Eos.Node.new] at h
  · intro p h; cases h
  · intro p a f x h; cases h
  · intro p x h; cases h
  · intro p h; cases h
  · intro _ h; exact absurd rfl h

theorem com_prompt {c : Delay.Cfg} {L : Nat} {s : S} (h : Prompt c L s) : Com c L s := by
  induction h with
  | init => exact com_init c L
  | @step s s' l hr hp hs I =>
    obtain ⟨d, h1, rfl⟩ := step_eq hs
    have free_iff : s.free = true ↔ s.d.pool.com = .idle ∧ s.d.pool.cq = [] := by simp [S.free]
    have I1 := I.past
    cases l with
    | pass k =>
      obtain ⟨p1, p2, p3⟩ := hp k rfl
      simp only [Delay.step, Option.some.injEq] at h1; subst h1
      simp only [turns, reduceCtorEq, if_false, Bool.false_eq_true]
      refine ⟨I.cap, ?_, ?_, ?_, ?_, ?_, ?_, ?_⟩
      · intro q ho
        have := I.dead q ho
        have : (s.d.pool.nodes q).opened = true := ho
        simp only [this]
        simp only [Bool.not_true, Bool.and_false, Bool.false_eq_true, if_false]
        omega
      · constructor <;> · simp only; split <;> omega
      · intro p hc
        have hc : s.d.pool.com = .begun p := hc
        have hf : ¬ s.free = true := by rw [free_iff]; rintro ⟨h, _⟩; rw [hc] at h; cases h
        simp only [if_neg hf]
        exact ⟨(I.begun p hc).1, p2 (.inl ⟨p, hc⟩)⟩
      · intro p a f x hc
        have hc : s.d.pool.com = .fin p a f x := hc
        have hf : ¬ s.free = true := by rw [free_iff]; rintro ⟨h, _⟩; rw [hc] at h; cases h
        have J := I.fin p a f x hc
        simp only [if_neg hf, J.1]
        exact ⟨trivial, J.2.1, J.2.2.1, p3 p a f x hc⟩
      · intro p x hc
        have hc : s.d.pool.com = .relinq p x := hc
        have hf : ¬ s.free = true := by rw [free_iff]; rintro ⟨h, _⟩; rw [hc] at h; cases h
        simp only [if_neg hf]
        exact ⟨(I.relinq p x hc).1, p2 (.inr (.inl ⟨p, x, hc⟩))⟩
      · intro p hc
        have hc : s.d.pool.com = .back p := hc
        have hf : ¬ s.free = true := by rw [free_iff]; rintro ⟨h, _⟩; rw [hc] at h; cases h
        simp only [if_neg hf]
        exact ⟨(I.back p hc).1, p2 (.inr (.inr (.inl ⟨p, hc⟩)))⟩
      · intro hc hq
        have hf : ¬ s.free = true := by rw [free_iff]; rintro ⟨_, h⟩; exact hq h
        simp only [if_neg hf]
        exact ⟨(I.idle hc hq).1, p2 (.inr (.inr (.inr ⟨hc, hq⟩)))⟩
    | fire =>
      simp only [Delay.step] at h1
      split at h1
      · simp only [Option.some.injEq] at h1; subst h1
        simp only [turns, reduceCtorEq, if_false, Bool.false_eq_true]
        have hd : (fun q => if ((s.d.pool.nodes q).opened && !(s.d.pool.nodes q).opened) = true then s.d.now + txnTimeout else s.dead q) = s.dead := by
          funext q; simp
        simp only [hd]
        refine ⟨I.cap, I.dead, ?_, ?_, ?_, ?_, ?_, ?_⟩
        · constructor <;> · simp only; split <;> omega
        · intro p hc
          have hf : ¬ s.free = true := by rw [free_iff]; rintro ⟨h, _⟩; rw [show s.d.pool.com = .begun p from hc] at h; cases h
          simp only [if_neg hf]; exact I.begun p hc
        · intro p a f x hc
          have hf : ¬ s.free = true := by rw [free_iff]; rintro ⟨h, _⟩; rw [show s.d.pool.com = .fin p a f x from hc] at h; cases h
          simp only [if_neg hf]; exact I.fin p a f x hc
        · intro p x hc
          have hf : ¬ s.free = true := by rw [free_iff]; rintro ⟨h, _⟩; rw [show s.d.pool.com = .relinq p x from hc] at h; cases h
          simp only [if_neg hf]; exact I.relinq p x hc
        · intro p hc
          have hf : ¬ s.free = true := by rw [free_iff]; rintro ⟨h, _⟩; rw [show s.d.pool.com = .back p from hc] at h; cases h
          simp only [if_neg hf]; exact I.back p hc
        · intro hc hq
          have hf : ¬ s.free = true := by rw [free_iff]; rintro ⟨_, h⟩; exact hq h
          simp only [if_neg hf]; exact I.idle hc hq
      · cases h1
    | pool l =>
      obtain ⟨h0, p', t, h2, h3, rfl⟩ := Delay.pool_step h1
      have ⟨tp, tn⟩ := Delay.timer_pool h3
      have ht := turns_of h2
      have hdead : ∀ q, (p'.nodes q).opened = true →
          (if ((p'.nodes q).opened && !(s.d.pool.nodes q).opened) = true then s.d.now + txnTimeout else s.dead q) ≤ s.d.now + txnTimeout := by
        intro q _
        split
        · exact Nat.le_refl _
        · rename_i h4
          exact I.dead q (by simp_all)
      have hpast : ∀ (b : Bool), (if b = true then s.d.now else if s.free = true then t.now else s.stage) ≤ t.now := by
        intro b; rw [tn]; split <;> [exact Nat.le_refl _; (split <;> [exact Nat.le_refl _; exact I1.2])]
      have hwork : (if (Delay.Label.pool l) = .pool .take then s.d.now else if s.free = true then t.now else s.work) ≤ t.now := by
        rw [tn]; split <;> [exact Nat.le_refl _; (split <;> [exact Nat.le_refl _; exact I1.1])]
      refine ⟨?_, fun q ho => by simpa only [tn] using hdead q ho, ⟨hwork, hpast _⟩, ?_, ?_, ?_, ?_, ?_⟩
      · have I2 := I.cap
        show p'.cq.length ≤ c.eos.pending
        cases ht with
        | push _ _ _ _ g1 g2 => rw [g2, List.length_append]; exact g1
        | take q _ g1 => rw [g1, List.length_cons] at I2; omega
        | _ => simp only [*]
      · -- begun
        intro p hc
        have hc : p'.com = .begun p := hc
        cases ht with
        | push _ g1 g2 g3 | other _ g1 g2 g3 =>
          have hc' : s.d.pool.com = .begun p := g3 ▸ hc
          have hf : ¬ s.free = true := by rw [free_iff]; rintro ⟨h, _⟩; rw [hc'] at h; cases h
          simp only [g1, Bool.false_eq_true, if_false, if_neg hf, Delay.Label.pool.injEq, g2, tn]
          exact I.begun p hc'
        | take q => simp [turns, tn]
        | _ => simp_all
      · -- fin
        intro p a f x hc
        have hc : p'.com = .fin p a f x := hc
        cases ht with
        | push _ g1 g2 g3 | other _ g1 g2 g3 =>
          have hc' : s.d.pool.com = .fin p a f x := g3 ▸ hc
          have hf : ¬ s.free = true := by rw [free_iff]; rintro ⟨h, _⟩; rw [hc'] at h; cases h
          have J := I.fin p a f x hc'
          have ho := opened_stays h2 hc' J.1
          simp only [g1, Bool.false_eq_true, if_false, if_neg hf, Delay.Label.pool.injEq, g2, tn, ho, J.1, Bool.not_true, Bool.and_false]
          exact ⟨trivial, J.2.1, J.2.2.1, J.2.2.2⟩
        | begin o q g1 g2 g3 g4 =>
          have : q = p := by rw [g2] at hc; cases hc; rfl
          subst this
          have hf : ¬ s.free = true := by rw [free_iff]; rintro ⟨h, _⟩; rw [g1] at h; cases h
          have J := I.begun q g1
          have hd := hdead q g4
          simp only [turns, if_true, if_neg hf, Delay.Label.pool.injEq, reduceCtorEq, if_false, tn]
          refine ⟨g4, ?_, ?_, ?_⟩ <;> omega
        | wait q a' b' f' g' x' y' g1 g2 g3 =>
          have : q = p := by rw [g2] at hc; cases hc; rfl
          subst this
          have hf : ¬ s.free = true := by rw [free_iff]; rintro ⟨h, _⟩; rw [g1] at h; cases h
          have J := I.fin q _ _ _ g1
          have ho := opened_stays h2 g1 J.1
          simp only [turns, Bool.false_eq_true, if_false, if_neg hf, Delay.Label.pool.injEq, reduceCtorEq, tn, ho, J.1, Bool.not_true, Bool.and_false]
          exact ⟨trivial, J.2.1, J.2.2.1, J.2.2.2⟩
        | fail b q a' f' x' g1 g2 => rcases g2 with g2 | g2 <;> rw [g2] at hc <;> cases hc
        | _ => simp_all
      · -- relinq
        intro p x hc
        have hc : p'.com = .relinq p x := hc
        cases ht with
        | push _ g1 g2 g3 | other _ g1 g2 g3 =>
          have hc' : s.d.pool.com = .relinq p x := g3 ▸ hc
          have hf : ¬ s.free = true := by rw [free_iff]; rintro ⟨h, _⟩; rw [hc'] at h; cases h
          simp only [g1, Bool.false_eq_true, if_false, if_neg hf, Delay.Label.pool.injEq, g2, tn]
          exact I.relinq p x hc'
        | ends o q a f y g1 g2 g3 =>
          have hf : ¬ s.free = true := by rw [free_iff]; rintro ⟨h, _⟩; rw [g1] at h; cases h
          have J := I.fin _ _ _ _ g1
          simp only [turns, if_true, if_neg hf, Delay.Label.pool.injEq, reduceCtorEq, if_false, tn]
          refine ⟨?_, ?_⟩ <;> omega
        | more q y z g1 g2 g3 =>
          have hf : ¬ s.free = true := by rw [free_iff]; rintro ⟨h, _⟩; rw [g1] at h; cases h
          simp only [turns, Bool.false_eq_true, if_false, if_neg hf, Delay.Label.pool.injEq, reduceCtorEq, tn]
          exact I.relinq _ _ g1
        | fail b q a' f' x' g1 g2 => rcases g2 with g2 | g2 <;> rw [g2] at hc <;> cases hc
        | _ => simp_all
      · -- back
        intro p hc
        have hc : p'.com = .back p := hc
        cases ht with
        | push _ g1 g2 g3 | other _ g1 g2 g3 =>
          have hc' : s.d.pool.com = .back p := g3 ▸ hc
          have hf : ¬ s.free = true := by rw [free_iff]; rintro ⟨h, _⟩; rw [hc'] at h; cases h
          simp only [g1, Bool.false_eq_true, if_false, if_neg hf, Delay.Label.pool.injEq, g2, tn]
          exact I.back p hc'
        | clear q y g1 g2 g3 =>
          have hf : ¬ s.free = true := by rw [free_iff]; rintro ⟨h, _⟩; rw [g1] at h; cases h
          simp only [turns, Bool.false_eq_true, if_false, if_neg hf, Delay.Label.pool.injEq, reduceCtorEq, tn]
          exact I.relinq _ _ g1
        | fail b q a' f' x' g1 g2 => rcases g2 with g2 | g2 <;> rw [g2] at hc <;> cases hc
        | _ => simp_all
      · -- idle
        intro hc hq
        have hc : p'.com = .idle := hc
        have hq : p'.cq ≠ [] := hq
        cases ht with
        | push _ g1 g2 g3 =>
          have hc' : s.d.pool.com = .idle := g3 ▸ hc
          by_cases hf : s.free = true
          · simp only [g1, Bool.false_eq_true, if_false, if_pos hf, Delay.Label.pool.injEq, g2, tn]
            omega
          · have hq' : s.d.pool.cq ≠ [] := fun h => hf (free_iff.2 ⟨hc', h⟩)
            simp only [g1, Bool.false_eq_true, if_false, if_neg hf, Delay.Label.pool.injEq, g2, tn]
            exact I.idle hc' hq'
        | other _ g1 g2 g3 g4 =>
          have hc' : s.d.pool.com = .idle := g3 ▸ hc
          have hq' : s.d.pool.cq ≠ [] := g4 ▸ hq
          have hf : ¬ s.free = true := by rw [free_iff]; rintro ⟨_, h⟩; exact hq' h
          simp only [g1, Bool.false_eq_true, if_false, if_neg hf, Delay.Label.pool.injEq, g2, tn]
          exact I.idle hc' hq'
        | back q g1 g2 g3 =>
          have hf : ¬ s.free = true := by rw [free_iff]; rintro ⟨h, _⟩; rw [g1] at h; cases h
          have J := I.back _ g1
          simp only [turns, if_true, if_neg hf, Delay.Label.pool.injEq, reduceCtorEq, if_false, tn]
          refine ⟨?_, ?_⟩ <;> omega
        | fail b q a' f' x' g1 g2 =>
          have hf : ¬ s.free = true := by rw [free_iff]; rintro ⟨h, _⟩; rw [g1] at h; cases h
          have J := I.fin _ _ _ _ g1
          simp only [turns, if_true, if_neg hf, Delay.Label.pool.injEq, reduceCtorEq, if_false, tn]
          refine ⟨?_, ?_⟩ <;> omega
        | _ => simp_all

/-- As long as the commit loop has something to do, it takes the next transaction in time. -/
theorem work_bound {c : Delay.Cfg} {L : Nat} {s : S} (I : Com c L s) (h1 : s.d.pool.com ≠ .stopped)
    (h2 : s.d.pool.com ≠ .idle ∨ s.d.pool.cq ≠ []) : s.d.now ≤ s.work + txnTimeout + 4 * L := by
  cases hc : s.d.pool.com with
  | idle =>
    have hq : s.d.pool.cq ≠ [] := h2.elim (fun h => absurd hc h) id
    have := I.idle hc hq; omega
  | begun p => have := I.begun p hc; omega
  | fin p a f x => have := I.fin p a f x hc; omega
  | relinq p x => have := I.relinq p x hc; omega
  | back p => have := I.back p hc; omega
  | stopped => exact absurd hc h1

/-- There are events on deck and the forwarding loop is not blocked. -/
def Held (s : S) : Prop := 0 < s.d.deck.cnt ∧ ¬ Delay.Blocked s.d

/-- The bounds of the transaction on deck. -/
structure Deck (c : Delay.Cfg) (L : Nat) (s : S) : Prop where
  soon : Held s → Delay.Busy s.d → s.d.tried = false → s.d.since ≤ s.d.first + c.delay + 3 * L
  full : Held s → s.d.tried = true → ¬ s.d.pool.cq.length < c.eos.pending → s.work ≤ s.failed
  base : Held s → s.d.tried = true → s.d.base ≤ s.failed + txnTimeout + 4 * L
  fail : Held s → s.d.tried = true → s.failed ≤ s.d.first + c.delay + 4 * L

theorem keep {c : Delay.Cfg} {p p' : Eos.Pool} {l : Eos.Label} (hp : 0 < c.eos.pending) (hcap : p.cq.length ≤ c.eos.pending)
    (ht : Turns c.eos p p' l) (hs : p'.fwd ≠ .swap) (hf : ¬ p'.cq.length < c.eos.pending) :
    ¬ p.cq.length < c.eos.pending ∧ l ≠ .take ∧ p.cq ≠ [] := by
  have key : ∀ {x : List Nat}, p'.cq = x → ¬ x.length < c.eos.pending ∧ x ≠ [] := by
    intro x h
    rw [h] at hf
    refine ⟨hf, ?_⟩
    rintro rfl
    exact hf (by simpa using hp)
  cases ht with
  | push _ _ _ _ _ _ g => exact absurd g hs
  | take q _ g => rw [g, List.length_cons] at hcap; omega
  | begin _ _ _ _ g => have := key g; exact ⟨this.1, by simp, this.2⟩
  | wait _ _ _ _ _ _ _ _ _ g => have := key g; exact ⟨this.1, by simp, this.2⟩
  | ends _ _ _ _ _ _ _ g => have := key g; exact ⟨this.1, by simp, this.2⟩
  | more _ _ _ _ _ g => have := key g; exact ⟨this.1, by simp, this.2⟩
  | clear _ _ _ _ g => have := key g; exact ⟨this.1, by simp, this.2⟩
  | back _ _ _ g => have := key g; exact ⟨this.1, by simp, this.2⟩
  | fail _ _ _ _ _ _ _ g => have := key g; exact ⟨this.1, by simp, this.2⟩
  | stop _ _ g => have := key g; exact ⟨this.1, by simp, this.2⟩
  | other _ _ g1 _ g => have := key g; exact ⟨this.1, g1, this.2⟩

theorem not_stopped {c : Eos.Cfg} {p p' : Eos.Pool} {l : Eos.Label} (ht : Turns c p p' l) (h : p'.com ≠ .stopped) : p.com ≠ .stopped := by
  cases ht <;> simp_all

theorem deck_prompt {c : Delay.Cfg} (hd : 0 < c.delay) (hp : 0 < c.eos.pending) {L : Nat} {s : S} (h : Prompt c L s) :
    s.d.pool.com ≠ .stopped → Deck c L s := by
  induction h with
  | init =>
    intro _
    have : ¬ Held (S.init c) := by rintro ⟨h, _⟩; simp [S.init, Delay.S.init, Delay.S.deck, Eos.Pool.init, Eos.Node.new] at h
    exact ⟨fun h => absurd h this, fun h => absurd h this, fun h => absurd h this, fun h => absurd h this⟩
  | @step s s' l hr hpr hs ih =>
    intro hst
    obtain ⟨d, h1, rfl⟩ := step_eq hs
    have C := com_prompt hr
    have hcr := Delay.no_crash hd hr.delay.reach
    have K := Delay.clock_prompt hr.delay hcr
    have free_iff : s.free = true ↔ s.d.pool.com = .idle ∧ s.d.pool.cq = [] := by simp [S.free]
    have nfree : ¬ s.d.pool.cq.length < c.eos.pending → ¬ s.free = true := by
      intro hf h
      rw [(free_iff.1 h).2] at hf
      exact hf (by simpa using hp)
    cases l with
    | pass k =>
      simp only [Delay.step, Option.some.injEq] at h1; subst h1
      have I := ih hst
      refine ⟨I.soon, ?_, I.base, I.fail⟩
      intro a1 a2 a3
      simp only [reduceCtorEq, if_false, if_neg (nfree a3)]
      exact I.full a1 a2 a3
    | fire =>
      simp only [Delay.step] at h1
      split at h1
      · simp only [Option.some.injEq] at h1; subst h1
        have I := ih hst
        refine ⟨I.soon, ?_, I.base, I.fail⟩
        intro a1 a2 a3
        simp only [reduceCtorEq, if_false, if_neg (nfree a3)]
        exact I.full a1 a2 a3
      · cases h1
    | pool l =>
      obtain ⟨h0, p', t, h2, h3, rfl⟩ := Delay.pool_step h1
      have ⟨tp, tn⟩ := Delay.timer_pool h3
      have ht := turns_of h2
      have hm := Delay.moves (Delay.fresh_reach hr.delay.reach) h2
      have I := ih (not_stopped ht hst)
      have untried : s.d.pool.fwd = .idle → 0 < s.d.deck.cnt → s.d.tried = false → s.d.now ≤ s.d.first + c.delay + 3 * L := by
        intro a1 a2 a3
        have b1 := Delay.wait_bound hr.delay hcr ⟨a2, .inl a1⟩
        have b2 := K.fresh ⟨a2, .inl a1⟩ a3
        omega
      have same : ∀ (d' : Delay.S), d'.pool = p' → l ≠ .tryFlush →
          (p'.fwd ≠ .swap) → (Held s → s.d.tried = true → True) →
          ¬ p'.cq.length < c.eos.pending → Held s → s.d.tried = true →
          (if Delay.Label.pool l = .pool .take then s.d.now else if s.free = true then d'.now else s.work) ≤ s.failed := by
        intro d' _ _ g1 _ g2 g3 g4
        obtain ⟨k1, k2, k3⟩ := keep hp C.cap ht g1 g2
        simp only [Delay.Label.pool.injEq, k2, if_false, if_neg (nfree k1)]
        exact I.full g3 g4 k1
      cases hm with
      | add e f1 f2 f3 =>
        simp only [Delay.timer, Option.some.injEq] at h3; subst h3
        have hh : 0 < s.d.deck.cnt → Held s := fun h => ⟨h, by rintro (h | h) <;> simp [f1] at h⟩
        by_cases hz : s.d.deck.cnt = 0
        · refine ⟨?_, ?_, ?_, ?_⟩
          · intro _ _ _; simp only [hz, if_true]; omega
          all_goals intro _ h; simp [hz] at h
        · have hh := hh (Nat.pos_of_ne_zero hz)
          simp only [hz, if_false]
          refine ⟨?_, ?_, ?_, ?_⟩
          · intro _ _ a; exact untried f1 (Nat.pos_of_ne_zero hz) a
          · intro _ a b
            exact same { s.d with pool := p' } rfl (by simp) (by simp [f2]) (fun _ _ => trivial) b hh a
          · intro _ a; exact I.base hh a
          · intro _ a; exact I.fail hh a
      | give e f1 f2 f3 =>
        simp only [Delay.timer, Option.some.injEq] at h3; subst h3
        have hh : 0 < (p'.nodes p'.onDeck).cnt → Held s := fun h => ⟨by rw [f3] at h; exact h, by rintro (h | h) <;> simp [f1] at h⟩
        refine ⟨?_, ?_, ?_, ?_⟩
        · rintro ⟨a1, _⟩ _ a; exact I.soon (hh a1) (by simp [Delay.Busy, f1]) a
        · rintro ⟨a1, _⟩ a b
          exact same { s.d with pool := p' } rfl (by simp) (by simp [f2]) (fun _ _ => trivial) b (hh a1) a
        · rintro ⟨a1, _⟩ a; exact I.base (hh a1) a
        · rintro ⟨a1, _⟩ a; exact I.fail (hh a1) a
      | check1 f1 f2 f3 f4 =>
        simp only [Delay.timer] at h3
        rw [if_pos (show c.eos.target ≤ s.d.deck.load from f2)] at h3
        simp only [Option.some.injEq] at h3; subst h3
        have hh : 0 < (p'.nodes p'.onDeck).cnt → Held s := fun h => ⟨by rw [f4] at h; exact h, by rintro (h | h) <;> simp [f1] at h⟩
        refine ⟨?_, ?_, ?_, ?_⟩
        · rintro ⟨a1, _⟩ _ a; exact I.soon (hh a1) (by simp [Delay.Busy, f1]) a
        · rintro ⟨a1, _⟩ a b
          exact same { s.d with pool := p' } rfl (by simp) (by simp [f3]) (fun _ _ => trivial) b (hh a1) a
        · rintro ⟨a1, _⟩ a; exact I.base (hh a1) a
        · rintro ⟨a1, _⟩ a; exact I.fail (hh a1) a
      | check2 f1 f2 f3 f4 =>
        simp only [Delay.timer] at h3
        rw [if_neg (show ¬ c.eos.target ≤ s.d.deck.load from f2)] at h3
        have hh : 0 < (p'.nodes p'.onDeck).cnt → Held s := fun h => ⟨by rw [f4] at h; exact h, by rintro (h | h) <;> simp [f1] at h⟩
        have nb : ∀ d' : Delay.S, d'.pool = p' → ¬ Delay.Busy d' := by rintro d' rfl ⟨h, _⟩; exact h f3
        split at h3
        · rename_i hsd
          simp only [Delay.reset_ok hd, Option.some.injEq] at h3; subst h3
          have h5 := (K.start (.inl f1) hsd).2
          refine ⟨fun _ h => absurd h (nb _ rfl), ?_, ?_, ?_⟩
          all_goals intro _ h; simp only [h5] at h; cases h
        · simp only [Option.some.injEq] at h3; subst h3
          refine ⟨fun _ h => absurd h (nb _ rfl), ?_, ?_, ?_⟩
          · rintro ⟨a1, _⟩ a b
            exact same { s.d with pool := p' } rfl (by simp) (by simp [f3]) (fun _ _ => trivial) b (hh a1) a
          · rintro ⟨a1, _⟩ a; exact I.base (hh a1) a
          · rintro ⟨a1, _⟩ a; exact I.fail (hh a1) a
      | tick f1 f2 f3 =>
        simp only [Delay.timer] at h3
        split at h3
        · simp only [Option.some.injEq] at h3; subst h3
          have hh : 0 < (p'.nodes p'.onDeck).cnt → Held s := fun h => ⟨by rw [f3] at h; exact h, by rintro (h | h) <;> simp [f1] at h⟩
          refine ⟨?_, ?_, ?_, ?_⟩
          · rintro ⟨a1, _⟩ _ a; exact untried f1 (hh a1).1 a
          · rintro ⟨a1, _⟩ a b
            exact same { s.d with pool := p' } rfl (by simp) (by simp [f2]) (fun _ _ => trivial) b (hh a1) a
          · rintro ⟨a1, _⟩ a; exact I.base (hh a1) a
          · rintro ⟨a1, _⟩ a; exact I.fail (hh a1) a
        · cases h3
      | try1 f1 f2 f3 =>
        have nh : ∀ d' : S, d'.d.pool = p' → ¬ Held d' := by rintro d' rfl ⟨_, h⟩; exact h (.inl f3)
        exact ⟨fun h => absurd h (nh _ rfl), fun h => absurd h (nh _ rfl), fun h => absurd h (nh _ rfl), fun h => absurd h (nh _ rfl)⟩
      | try2 f1 f2 f3 f4 f5 =>
        have nh : ∀ d' : S, d'.d.pool = p' → ¬ Held d' := by rintro d' rfl ⟨_, h⟩; exact h (.inr f5)
        exact ⟨fun h => absurd h (nh _ rfl), fun h => absurd h (nh _ rfl), fun h => absurd h (nh _ rfl), fun h => absurd h (nh _ rfl)⟩
      | try3 f1 f2 f3 f4 f5 f6 =>
        simp only [Delay.timer] at h3
        rw [if_neg (show ¬ ({ s.d with base := s.d.now, tried := true } : Delay.S).deck.load = c.eos.max from f2),
          if_pos (show 0 < ({ s.d with base := s.d.now, tried := true } : Delay.S).deck.cnt from f3), if_neg f4, Delay.reset_ok hd] at h3
        simp only [Option.some.injEq] at h3; subst h3
        have hh : Held s := ⟨f3, by rintro (h | h) <;> simp [f1] at h⟩
        have hb : Delay.Busy s.d := by simp [Delay.Busy, f1]
        have hq : s.d.pool.cq ≠ [] := by intro h; rw [h] at f4; exact f4 (by simpa using hp)
        have hw := work_bound C (not_stopped ht hst) (.inr hq)
        have hnow := K.busy hb
        refine ⟨?_, ?_, ?_, ?_⟩
        · intro _ _ h; simp at h
        · intro _ _ _
          simp only [Delay.Label.pool.injEq, reduceCtorEq, if_false, if_neg (nfree f4), if_true]
          split
          · rename_i htr; exact I.full hh htr f4
          · exact C.past.1
        · intro _ _
          simp only [if_true]
          split
          · rename_i htr; have := I.full hh htr f4; omega
          · omega
        · intro _ _
          simp only [if_true]
          split
          · rename_i htr; exact I.fail hh htr
          · rename_i htr
            have := I.soon hh hb (by simpa using htr)
            omega
      | try4 f1 f2 f3 f4 f5 =>
        have nh : ∀ d' : S, d'.d.pool = p' → ¬ Held d' := by
          rintro d' rfl ⟨h, _⟩
          simp only [Delay.S.deck, f5] at h; exact f3 h
        exact ⟨fun h => absurd h (nh _ rfl), fun h => absurd h (nh _ rfl), fun h => absurd h (nh _ rfl), fun h => absurd h (nh _ rfl)⟩
      | forced f1 f2 =>
        have nh : ∀ d' : S, d'.d.pool = p' → ¬ Held d' := by rintro d' rfl ⟨_, h⟩; exact h (.inr f2)
        exact ⟨fun h => absurd h (nh _ rfl), fun h => absurd h (nh _ rfl), fun h => absurd h (nh _ rfl), fun h => absurd h (nh _ rfl)⟩
      | swapIn f1 f2 f3 =>
        have nh : ∀ d' : S, d'.d.pool = p' → ¬ Held d' := by
          rintro d' rfl ⟨h, _⟩
          simp only [Delay.S.deck, f3] at h; omega
        exact ⟨fun h => absurd h (nh _ rfl), fun h => absurd h (nh _ rfl), fun h => absurd h (nh _ rfl), fun h => absurd h (nh _ rfl)⟩
      | other _ g0 g1 _ _ f2 f3 =>
        rw [g0] at h3
        simp only [Option.some.injEq] at h3; subst h3
        have hh : ∀ d' : S, d'.d.pool = p' → Held d' → Held s := by
          rintro d' hd' ⟨a1, a2⟩
          refine ⟨?_, by simpa only [Delay.Blocked, hd', f2] using a2⟩
          simp only [Delay.S.deck, hd'] at a1 ⊢
          rcases f3 with f3 | f3 <;> rw [f3] at a1
          · exact a1
          · exact absurd a1 (by simp)
        have hlf : ¬ (Delay.Label.pool l = .pool .tryFlush) := by simpa using g1
        simp only [if_neg hlf]
        refine ⟨?_, ?_, ?_, ?_⟩
        · intro a1 a2 a; exact I.soon (hh _ rfl a1) (by simpa only [Delay.Busy, f2] using a2) a
        · intro a1 a b
          have nsw : p'.fwd ≠ .swap := fun h => a1.2 (.inr h)
          exact same { s.d with pool := p' } rfl g1 nsw (fun _ _ => trivial) b (hh _ rfl a1) a
        · intro a1 a; exact I.base (hh _ rfl a1) a
        · intro a1 a; exact I.fail (hh _ rfl a1) a

/-- How long a transaction can be on deck, the queue being full or not. -/
theorem deck_bound {c : Delay.Cfg} (hd : 0 < c.delay) (hp : 0 < c.eos.pending) {L : Nat} {s : S} (h : Prompt c L s)
    (hs : s.d.pool.com ≠ .stopped) (hi : s.d.pool.fwd = .idle) (hn : 0 < s.d.deck.cnt) :
    s.d.now ≤ s.d.first + 2 * c.delay + txnTimeout + 10 * L := by
  have hcr := Delay.no_crash hd h.delay.reach
  have D := deck_prompt hd hp h hs
  have b1 := Delay.wait_bound h.delay hcr ⟨hn, .inl hi⟩
  have hh : Held s := ⟨hn, by rintro (h | h) <;> simp [hi] at h⟩
  cases ht : s.d.tried with
  | false =>
    have := (Delay.clock_prompt h.delay hcr).fresh ⟨hn, .inl hi⟩ ht
    omega
  | true =>
    have b2 := D.base hh ht
    have b3 := D.fail hh ht
    omega

end Verif.Deadline
