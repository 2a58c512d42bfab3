import Verif.Whole.Joint
/-
The invariant that ties workers and pool together.
-/
set_option linter.unusedSimpArgs false
namespace Verif.Whole
open Verif.Eos (Ev Pool)
open Verif.Effects (Inc)
open Verif.Worker (PW It)

variable {c : Eos.Cfg} {ecap : Nat} {src : Nat → List Nat} {w w' : Group}

/-- The event has been given a producer. -/
def Given (s : PW) (it : It) : Prop := it ∈ s.sched ∧ s.prod it.id = some true

/-- A pool and the workers that use it. -/
structure LinkK (p : Pool) (f : Nat → PW) (n : Nat) (part : Nat → Nat) : Prop where
  ad : ∀ e, e ∈ p.added.map Prod.fst ↔ ∃ j it, j < n ∧ Given (f j) it ∧ e = ⟨Nat.pair j it.id, part j, it.off⟩
  dn : ∀ j i, Nat.pair j i ∈ p.done ↔ i ∈ (f j).done
  as : ∀ j it, ((f j).wk = .run it ∨ it ∈ (f j).pend) → (p.asg (Nat.pair j it.id)).isSome
  fn : ∀ j i, i ∈ (f j).fin → ∃ e, Passed p e ∧ e.id = Nat.pair j i
  rt : ∀ j, (f j).roots = openRoots p j

/-- The same for all consumers. -/
def Link (w : Group) : Prop := ∀ k, LinkK (w.inst k).pool (w.wks k) (w.nw k) (w.part k)

/-- Steps that leave alone what the two sides know of each other. -/
theorem linkK_frame {p p' : Pool} {f f' : Nat → PW} {n : Nat} {part : Nat → Nat} (L : LinkK p f n part)
    (h1 : p'.added = p.added) (h2 : p'.done = p.done) (h3 : ∀ i, (p.asg i).isSome → (p'.asg i).isSome) (h4 : ∀ e, Passed p e → Passed p' e)
    (h5 : ∀ j, openRoots p' j = openRoots p j)
    (h6 : ∀ j it, Given (f' j) it ↔ Given (f j) it) (h7 : ∀ j, (f' j).done = (f j).done)
    (h8 : ∀ j it, ((f' j).wk = .run it ∨ it ∈ (f' j).pend) → (f j).wk = .run it ∨ it ∈ (f j).pend ∨ (p.asg (Nat.pair j it.id)).isSome)
    (h9 : ∀ j, (f' j).fin = (f j).fin) (h10 : ∀ j, (f' j).roots = (f j).roots) : LinkK p' f' n part where
  ad := by
    intro e; rw [h1, L.ad e]
    constructor
    · rintro ⟨j, it, a1, a2, a3⟩; exact ⟨j, it, a1, (h6 j it).2 a2, a3⟩
    · rintro ⟨j, it, a1, a2, a3⟩; exact ⟨j, it, a1, (h6 j it).1 a2, a3⟩
  dn := by intro j i; rw [h2, h7]; exact L.dn j i
  as := by
    intro j it hh
    rcases h8 j it hh with h | h | h
    · exact h3 _ (L.as j it (.inl h))
    · exact h3 _ (L.as j it (.inr h))
    · exact h3 _ h
  fn := by
    intro j i hi; rw [h9] at hi
    obtain ⟨e, a1, a2⟩ := L.fn j i hi
    exact ⟨e, h4 e a1, a2⟩
  rt := by intro j; rw [h10, h5]; exact L.rt j

theorem given_mild {s s' : PW} (M : Mild s s') (it : It) : Given s' it ↔ Given s it := by
  unfold Given
  rw [M.prod]
  rcases M.sched with h | ⟨d, h, hd⟩
  · rw [h]
  · rw [h, List.mem_append]
    constructor
    · rintro ⟨a | a, b⟩
      · exact ⟨a, b⟩
      · rw [List.mem_singleton.1 a, hd] at b; cases b
    · rintro ⟨a, b⟩; exact ⟨.inl a, b⟩

/-- One worker changes. -/
theorem linkK_set {p p' : Pool} {f : Nat → PW} {n : Nat} {part : Nat → Nat} (L : LinkK p f n part) {j : Nat} {s : PW}
    (h1 : p'.added = p.added) (h2 : p'.done = p.done) (h3 : ∀ i, (p.asg i).isSome → (p'.asg i).isSome) (h4 : ∀ e, Passed p e → Passed p' e)
    (h5 : ∀ j, openRoots p' j = openRoots p j)
    (h6 : ∀ it, Given s it ↔ Given (f j) it) (h7 : s.done = (f j).done)
    (h8 : ∀ it, (s.wk = .run it ∨ it ∈ s.pend) → (f j).wk = .run it ∨ it ∈ (f j).pend ∨ (p.asg (Nat.pair j it.id)).isSome)
    (h9 : s.fin = (f j).fin) (h10 : s.roots = (f j).roots) : LinkK p' (Eos.upd f j s) n part := by
  refine linkK_frame L h1 h2 h3 h4 h5 ?_ ?_ ?_ ?_ ?_ <;> intro i <;> by_cases hi : i = j
  all_goals first
    | (subst hi; rw [upd_self]; first | exact h6 | exact h7 | exact h8 | exact h9 | exact h10)
    | rw [upd_other _ _ hi]
  · exact fun _ => Iff.rfl
  · rintro it (h | h)
    · exact .inl h
    · exact .inr (.inl h)

/-- Steps of the pool that are none of a worker. -/
theorem pool_quiet (hn : 0 < c.poolSize) {p p' : Pool} (hr : Eos.Reach c p) {l : Eos.Label} (h : Eos.step c p l = some p')
    (h1 : ∀ e, l ≠ .add e) (h2 : ∀ e, l ≠ .complete e) (h3 : ∀ o, l ≠ .endTxn o) (h4 : l ≠ .commitFail true) :
    p'.added = p.added ∧ p'.done = p.done ∧ (∀ i, (p.asg i).isSome → (p'.asg i).isSome) ∧ (∀ e, Passed p e → Passed p' e) ∧
    ∀ j, openRoots p' j = openRoots p j := by
  obtain ⟨f1, f2, f3, f4, f5⟩ := pool_frame h
  have a1 : p'.added = p.added := by
    rcases f1 with h | ⟨e, h, _⟩
    · exact h
    · exact absurd h (h1 e)
  have a4 : p'.ended = p.ended := by
    rcases f4 with h | ⟨o, _, _, _, h, _⟩
    · exact h
    · exact absurd h (h3 o)
  refine ⟨a1, ?_, f3, fun e => passed_step h h4, fun j => ?_⟩
  · rcases f2 with h | ⟨e, h, _⟩
    · exact h
    · exact absurd h (h2 e)
  · rcases f5 with h | ⟨_, h⟩
    · exact openRoots_same (by rw [a4]) h a1 j
    · exact openRoots_swap (pool_len hn hr) (fun e g hh => pool_le hn hr hh) a4 h a1 j

theorem link_init : Link (Group.init c) := by
  intro k
  refine ⟨?_, ?_, ?_, ?_, ?_⟩
  · intro e; simp [Group.init, Inc.start, Eos.Pool.init]
  · intro j i; simp [Group.init, Inc.start, Eos.Pool.init, PW.init]
  · intro j it h; simp [Group.init, PW.init] at h
  · intro j i h; simp [Group.init, PW.init] at h
  · intro j; simp [Group.init, PW.init, openRoots, Inc.start, Eos.Pool.init, rootEvs, Eos.evOf]

/-- Only consumer `k` changes. -/
theorem link_at {k : Nat} (L : Link w) (h1 : ∀ k', k' ≠ k → w'.inst k' = w.inst k') (h2 : ∀ k', k' ≠ k → w'.wks k' = w.wks k')
    (h3 : ∀ k', k' ≠ k → w'.nw k' = w.nw k') (h4 : ∀ k', k' ≠ k → w'.part k' = w.part k')
    (h5 : LinkK (w'.inst k).pool (w'.wks k) (w'.nw k) (w'.part k)) : Link w' := by
  intro k'
  by_cases hk : k' = k
  · subst hk; exact h5
  · rw [h1 k' hk, h2 k' hk, h3 k' hk, h4 k' hk]; exact L k'

theorem set_at (w : Group) (k j : Nat) (s : PW) : (w.set k j s).wks k = Eos.upd (w.wks k) j s := upd_self _ _ _

theorem move_at (w : Group) (k : Nat) (i : Inc) : (w.move k i).inst k = i := upd_self _ _ _

/-- A worker of one consumer and its pool go on. -/
theorem link_move {k j : Nat} {s : PW} {i : Inc} (L : Link w) (h : LinkK i.pool (Eos.upd (w.wks k) j s) (w.nw k) (w.part k)) :
    Link ((w.set k j s).move k i) := by
  refine link_at (k := k) L ?_ ?_ ?_ ?_ ?_
  · intro k' hk; exact upd_other _ _ hk
  · intro k' hk; exact upd_other _ _ hk
  · intro k' hk; rfl
  · intro k' hk; rfl
  · show LinkK ((w.move k i).inst k).pool ((w.set k j s).wks k) _ _
    rw [move_at, set_at]; exact h

theorem link_pool {k : Nat} {i : Inc} (L : Link w) (h : LinkK i.pool (w.wks k) (w.nw k) (w.part k)) : Link (w.move k i) := by
  refine link_at (k := k) L ?_ ?_ ?_ ?_ ?_
  · intro k' hk; exact upd_other _ _ hk
  · intro k' hk; rfl
  · intro k' hk; rfl
  · intro k' hk; rfl
  · rw [move_at]; exact h

theorem link_all {k : Nat} {i : Inc} {g : Nat → PW} (L : Link w) (h : LinkK i.pool g (w.nw k) (w.part k)) : Link ((w.setAll k g).move k i) := by
  refine link_at (k := k) L ?_ ?_ ?_ ?_ ?_
  · intro k' hk; exact upd_other _ _ hk
  · intro k' hk; exact upd_other _ _ hk
  · intro k' hk; rfl
  · intro k' hk; rfl
  · show LinkK ((w.move k i).inst k).pool ((w.setAll k g).wks k) _ _
    rw [move_at]
    have : (w.setAll k g).wks k = g := upd_self _ _ _
    rw [this]; exact h

theorem link_set {k j : Nat} {s : PW} (L : Link w) (h : LinkK (w.inst k).pool (Eos.upd (w.wks k) j s) (w.nw k) (w.part k)) :
    Link (w.set k j s) := by
  refine link_at (k := k) L ?_ ?_ ?_ ?_ ?_
  · intro k' hk; rfl
  · intro k' hk; exact upd_other _ _ hk
  · intro k' hk; rfl
  · intro k' hk; rfl
  · rw [set_at]; exact h

/-- Events of the pool: worker and number. -/
theorem ev_pair (e : Ev) : e.id = Nat.pair (owner e) (number e) := (Nat.pair_unpair e.id).symm

theorem pair_inj {a b a' b' : Nat} (h : Nat.pair a b = Nat.pair a' b') : a = a' ∧ b = b' := by
  have := congrArg Nat.unpair h
  rw [Nat.unpair_pair, Nat.unpair_pair] at this
  exact ⟨congrArg Prod.fst this, congrArg Prod.snd this⟩

theorem owner_pair (j i tp : Nat) (o : Option Nat) : owner ⟨Nat.pair j i, tp, o⟩ = j := by unfold owner; rw [Nat.unpair_pair]

theorem number_pair (j i tp : Nat) (o : Option Nat) : number ⟨Nat.pair j i, tp, o⟩ = i := by unfold number; rw [Nat.unpair_pair]

/-- The pool's call of `Done` for an event that it passes meets a worker that waits for it. -/
theorem finalize_ok (hn : 0 < c.poolSize) {p p' : Pool} (hr : Eos.Reach c p) {f : Nat → PW} {n : Nat} {part : Nat → Nat} (L : LinkK p f n part)
    {q : Nat} {e : Ev} {es : List Ev} {fl : Bool} {rest : List Nat} (hc : p.com = .fin q (e :: es) fl rest)
    (hs : Eos.step c p .wait = some p') : number e ∈ (f (owner e)).done ∧ number e ∉ (f (owner e)).fin := by
  constructor
  · refine (L.dn _ _).1 ?_
    rw [← ev_pair]
    simp only [Eos.step, hc] at hs
    split at hs
    · assumption
    · cases hs
  · intro hf
    obtain ⟨d, ⟨g, h1, h2⟩, h3⟩ := L.fn _ _ hf
    rw [← ev_pair] at h3
    have h4 := (pool_fin hn hr hc).2.2.2 e List.mem_cons_self
    obtain ⟨rfl, rfl⟩ := pool_unique hn hr h1 h4 h3
    rcases h2 with h2 | ⟨_, h2 | ⟨q', cur, fl', rest', h2, h5, _⟩⟩
    · omega
    · rw [hc] at h2; cases h2
    · rw [hc] at h2; cases h2; exact h5 List.mem_cons_self

theorem finalized_ok (cw : Worker.Cfg) (f : Nat → PW) {e : Ev} (h : number e ∈ (f (owner e)).done ∧ number e ∉ (f (owner e)).fin) :
    finalized cw f e = Eos.upd f (owner e) { f (owner e) with fin := (f (owner e)).fin ++ [number e], waiter := (f (owner e)).waiter - 1 } := by
  unfold finalized
  simp only [Worker.step, if_pos h, Option.getD_some]

/-- The calls of `Done` at the end of a transaction meet workers that wait for them. -/
theorem roots_ok (hn : 0 < c.poolSize) {p : Pool} (hr : Eos.Reach c p) {f : Nat → PW} {n : Nat} {part : Nat → Nat} (L : LinkK p f n part)
    {q : Nat} {cur : List Ev} {fl : Bool} {rest : List Nat} (hc : p.com = .fin q cur fl rest) (j : Nat) :
    ((rootEvs (p.nodes q).evs).countP fun e => owner e = j) ≤ (f j).roots := by
  obtain ⟨h1, _, h3, _⟩ := pool_fin hn hr hc
  rw [L.rt j, h1]
  rw [openRoots_end (p' := { p with ended := p.ended ++ [(0, true)] }) h3 rfl rfl rfl j]
  exact Nat.le_add_right _ _

theorem passed_same {p p' : Pool} (h1 : p'.added = p.added) (h2 : p'.ended = p.ended) (h3 : p'.com = p.com) {e : Ev} (h : Passed p e) : Passed p' e := by
  unfold Passed at *; rw [h1, h2, h3]; exact h

theorem link_step (hn : 0 < c.poolSize) (B : Base c ecap src w) (L : Link w) (h : Goes c ecap src w w') : Link w' := by
  cases h with
  | start => exact L
  | crash _ => exact L
  | @assign k tp f ha hc =>
    refine link_at (k := k) L (fun _ _ => rfl) (fun _ _ => rfl) (fun k' hk => upd_other _ _ hk) (fun k' hk => upd_other _ _ hk) ?_
    show LinkK (w.inst k).pool (w.wks k) (Eos.upd w.nw k (w.nw k + 1) k) (Eos.upd w.part k (Eos.upd (w.part k) (w.nw k) tp) k)
    rw [upd_self, upd_self]
    have LK := L k
    refine { LK with ad := ?_ }
    intro e
    rw [LK.ad e]
    constructor
    · rintro ⟨j, it, h1, h2, h3⟩
      refine ⟨j, it, by omega, h2, ?_⟩
      rw [upd_other _ _ (show j ≠ w.nw k by omega)]; exact h3
    · rintro ⟨j, it, h1, h2, h3⟩
      by_cases hj : j = w.nw k
      · subst hj
        rw [B.un k _ (Nat.le_refl _)] at h2
        exact absurd h2.1 (by simp [PW.init])
      · rw [upd_other _ _ hj] at h3
        exact ⟨j, it, by omega, h2, h3⟩
  | @revoke k tp j ha hc =>
    refine link_at (k := k) L (fun _ _ => rfl) (fun k' hk => upd_other _ _ hk) (fun _ _ => rfl) (fun _ _ => rfl) ?_
    show LinkK (w.inst k).pool ((w.set k j _).wks k) (w.nw k) (w.part k)
    rw [set_at]
    exact linkK_set (L k) rfl rfl (fun _ => id) (fun _ => id) (fun _ => rfl) (fun _ => Iff.rfl) rfl
      (fun it h => h.elim .inl fun h => .inr (.inl h)) rfl rfl
  | @fetch k j recs s ha hj hp hs =>
    simp only [Worker.step] at hs
    split at hs
    · cases hs
    · cases hs
      exact link_set L (linkK_set (L k) rfl rfl (fun _ => id) (fun _ => id) (fun _ => rfl) (fun _ => Iff.rfl) rfl
        (fun it h => h.elim .inl fun h => .inr (.inl h)) rfl rfl)
  | @ready k j wm ha hj h1 h2 h3 hb =>
    refine link_set L (linkK_set (L k) rfl rfl (fun _ => id) (fun _ => id) (fun _ => rfl) (fun _ => Iff.rfl) rfl
        (fun it h => ?_) rfl rfl)
    rcases h with h | h
    · cases h
    · exact .inr (.inl h)
  | @own k j l s ha hj hl hrd hc hs =>
    have M := mild_own (B.wr k j) hl hs
    obtain ⟨d1, d2, d3, _, d5⟩ := own_done hl hs
    refine link_set L (linkK_set (L k) rfl rfl (fun _ => id) (fun _ => id) (fun _ => rfl) (given_mild M) (d3 hc) (fun it h => ?_) d1 d2)
    rcases d5 it h with h | h | ⟨rfl, h2, h3⟩
    · exact .inl h
    · exact .inr (.inl h)
    · simp only [Group.ready, h2, h3, bne_self_eq_false, Bool.false_or] at hrd
      exact .inr (.inr hrd)
  | @complete k j l s it p ha hj hl hc hs hp =>
    have M := mild_own (B.wr k j) hl hs
    obtain ⟨d1, d2, _, d4, d5⟩ := own_done hl hs
    obtain ⟨f1, f2, f3, f4, f5⟩ := pool_frame hp
    have a1 : p.added = (w.inst k).pool.added := by
      rcases f1 with h | ⟨e, h, _⟩
      · exact h
      · cases h
    have a2 : p.done = (w.inst k).pool.done ++ [Nat.pair j it.id] := by
      simp only [Eos.step] at hp
      split at hp
      · split at hp
        · cases hp; rfl
        · cases hp
      · cases hp
    have a4 : p.ended = (w.inst k).pool.ended := by
      rcases f4 with h | ⟨_, _, _, _, h, _⟩
      · exact h
      · cases h
    have a5 : p.gen = (w.inst k).pool.gen := by
      rcases f5 with h | ⟨h, _⟩
      · exact h
      · cases h
    have LK := L k
    refine link_move L ?_
    refine { ad := ?_, dn := ?_, as := ?_, fn := ?_, rt := ?_ }
    · intro e
      show e ∈ p.added.map Prod.fst ↔ _
      rw [a1, LK.ad e]
      have hg : ∀ j' d, Given (Eos.upd (w.wks k) j s j') d ↔ Given (w.wks k j') d := by
        intro j' d
        by_cases hj' : j' = j
        · subst hj'; rw [upd_self]; exact given_mild M d
        · rw [upd_other _ _ hj']
      simp only [hg]
    · intro j' i
      show Nat.pair j' i ∈ p.done ↔ _
      rw [a2, List.mem_append, LK.dn, List.mem_singleton]
      by_cases hj' : j' = j
      · subst hj'
        rw [upd_self, (d4 it hc).1, List.mem_append, List.mem_singleton]
        constructor
        · rintro (h | h)
          · exact .inl h
          · exact .inr (pair_inj h).2
        · rintro (h | rfl)
          · exact .inl h
          · exact .inr rfl
      · rw [upd_other _ _ hj']
        constructor
        · rintro (h | h)
          · exact h
          · exact absurd (pair_inj h).1 hj'
        · exact .inl
    · intro j' d hd
      refine f3 _ ?_
      by_cases hj' : j' = j
      · subst hj'
        rw [upd_self] at hd
        rcases d5 d hd with h | h | ⟨rfl, h2, h3⟩
        · exact LK.as j' d (.inl h)
        · exact LK.as j' d (.inr h)
        · simp [completes] at hc
      · rw [upd_other _ _ hj'] at hd; exact LK.as j' d hd
    · intro j' i hi
      have hi' : i ∈ (w.wks k j').fin := by
        by_cases hj' : j' = j
        · subst hj'; rw [upd_self, d1] at hi; exact hi
        · rw [upd_other _ _ hj'] at hi; exact hi
      obtain ⟨e, h1, h2⟩ := LK.fn j' i hi'
      exact ⟨e, passed_step hp (by simp) h1, h2⟩
    · intro j'
      have : (Eos.upd (w.wks k) j s j').roots = (w.wks k j').roots := by
        by_cases hj' : j' = j
        · subst hj'; rw [upd_self, d2]
        · rw [upd_other _ _ hj']
      rw [this, LK.rt j']
      exact (openRoots_same (by show p.ended.length = _; rw [a4]) a5 a1 j').symm
  | @refuse k j it buf s ha hj hb hr hs =>
    obtain ⟨_, _, _, d3, _, d5, d6, d7, d8⟩ := decided_assign (Worker.invA_reach (B.wr k j)) hb hs
    have hg : ∀ d, Given s d ↔ Given (w.wks k j) d := by
      intro d
      unfold Given
      rw [d5, d6, hr]
      simp only [Worker.upd, Bool.not_true]
      by_cases hd : d.id = it.id
      · rw [if_pos hd, hd, d8]; simp
      · rw [if_neg hd]
    simp only [Worker.step, hb, hr, if_true] at hs
    cases hs
    exact link_set L (linkK_set (L k) rfl rfl (fun _ => id) (fun _ => id) (fun _ => rfl) hg rfl
      (fun it h => h.elim .inl fun h => .inr (.inl h)) rfl rfl)
  | @add k j it buf p s ha hj hb hr hp hs =>
    have A := Worker.invA_reach (B.wr k j)
    obtain ⟨_, _, _, d3, _, d5, d6, d7, d8⟩ := decided_assign A hb hs
    have LK := L k
    have hidle : (w.inst k).pool.fwd = .idle := by
      simp only [Eos.step] at hp
      split at hp
      · cases hp
      · assumption
      · cases hp
    obtain ⟨f1, f2, f3, f4, f5⟩ := pool_frame hp
    have a1 : p.added = (w.inst k).pool.added ++ [(w.ev k j it, (w.inst k).pool.gen)] := by
      simp only [Eos.step] at hp
      split at hp
      · cases hp
      · split at hp
        · cases hp
        · cases hp; rfl
      · cases hp
    have a2 : p.done = (w.inst k).pool.done := by
      rcases f2 with h | ⟨e, h, _⟩
      · exact h
      · cases h
    have a4 : p.ended = (w.inst k).pool.ended := by
      rcases f4 with h | ⟨_, _, _, _, h, _⟩
      · exact h
      · cases h
    have a5 : p.gen = (w.inst k).pool.gen := by
      rcases f5 with h | ⟨h, _⟩
      · exact h
      · cases h
    obtain ⟨q1, q2⟩ := pool_deck hn (B.pr k) hidle
    simp only [Worker.step, hb, hr, Bool.false_eq_true, if_false, Option.some.injEq] at hs
    refine link_move L ?_
    refine { ad := ?_, dn := ?_, as := ?_, fn := ?_, rt := ?_ }
    · intro e
      show e ∈ p.added.map Prod.fst ↔ _
      rw [a1, List.map_append, List.mem_append, LK.ad e]
      simp only [List.map_cons, List.map_nil, List.mem_singleton]
      constructor
      · rintro (⟨j', d, h1, h2, h3⟩ | h)
        · refine ⟨j', d, h1, ?_, h3⟩
          by_cases hj' : j' = j
          · subst hj'; rw [upd_self]
            refine ⟨by rw [d5]; exact h2.1, ?_⟩
            rw [d6]; simp only [Worker.upd]
            split
            · simp [hr]
            · exact h2.2
          · rw [upd_other _ _ hj']; exact h2
        · refine ⟨j, it, hj, ?_, h⟩
          rw [upd_self]
          refine ⟨by rw [d5]; exact d7, ?_⟩
          rw [d6]; simp [Worker.upd, hr]
      · rintro ⟨j', d, h1, h2, h3⟩
        by_cases hj' : j' = j
        · subst hj'
          rw [upd_self] at h2
          obtain ⟨h2a, h2b⟩ := h2
          rw [d5] at h2a
          rw [d6] at h2b
          simp only [Worker.upd] at h2b
          by_cases hd : d.id = it.id
          · have hn' : ((w.wks k j').sched.map It.id).Nodup := by rw [A.ids]; exact List.nodup_range
            have : d = it := List.inj_on_of_nodup_map hn' h2a d7 hd
            subst this
            exact .inr h3
          · rw [if_neg hd] at h2b
            exact .inl ⟨j', d, h1, ⟨h2a, h2b⟩, h3⟩
        · rw [upd_other _ _ hj'] at h2
          exact .inl ⟨j', d, h1, h2, h3⟩
    · intro j' i
      show Nat.pair j' i ∈ p.done ↔ _
      rw [a2, LK.dn]
      by_cases hj' : j' = j
      · subst hj'; rw [upd_self, ← hs]
      · rw [upd_other _ _ hj']
    · intro j' d hd
      refine f3 _ ?_
      by_cases hj' : j' = j
      · subst hj'; rw [upd_self, ← hs] at hd; exact LK.as j' d hd
      · rw [upd_other _ _ hj'] at hd; exact LK.as j' d hd
    · intro j' i hi
      have hi' : i ∈ (w.wks k j').fin := by
        by_cases hj' : j' = j
        · subst hj'; rw [upd_self, ← hs] at hi; exact hi
        · rw [upd_other _ _ hj'] at hi; exact hi
      obtain ⟨e, h1, h2⟩ := LK.fn j' i hi'
      exact ⟨e, passed_step hp (by simp) h1, h2⟩
    · intro j'
      have hroot : openRoots p j' = _ := openRoots_add (e := w.ev k j it) q2 a4 a5 a1 j'
      show _ = openRoots p j'
      rw [hroot, ← LK.rt j']
      have hhas : ((w.inst k).pool.nodes (w.inst k).pool.onDeck).has (w.part k j) =
          (Eos.evOf (w.inst k).pool.added (w.inst k).pool.gen).any fun d => d.part = (w.ev k j it).part := by
        unfold Eos.Node.has; rw [q1]; rfl
      have how : owner (w.ev k j it) = j := owner_pair _ _ _ _
      rw [how, ← hhas]
      by_cases hj' : j' = j
      · subst hj'
        rw [upd_self, ← hs]
        simp only [true_and]
        cases ((w.inst k).pool.nodes (w.inst k).pool.onDeck).has (w.part k j') <;> simp
      · rw [upd_other _ _ hj', if_neg]
        · simp
        · rintro ⟨h, _⟩; exact hj' h.symm
  | @emit k j it v p ha hj _ hp =>
    obtain ⟨a1, a2, a3, a4, a5⟩ := pool_quiet hn (B.pr k) hp (by simp) (by simp) (by simp) (by simp)
    exact link_pool L (linkK_frame (L k) a1 a2 a3 a4 a5 (fun _ _ => Iff.rfl) (fun _ => rfl)
      (fun _ _ h => h.elim .inl fun h => .inr (.inl h)) (fun _ => rfl) (fun _ => rfl))
  | @pool k l p ha hl hp =>
    have hq : (∀ e, l ≠ .add e) ∧ (∀ e, l ≠ .complete e) ∧ (∀ o, l ≠ .endTxn o) ∧ l ≠ .commitFail true := by
      rcases hl with h | ⟨rfl, _⟩
      · refine ⟨?_, ?_, ?_, ?_⟩ <;> intros <;> rintro rfl <;> cases h
      · simp
    obtain ⟨a1, a2, a3, a4, a5⟩ := pool_quiet hn (B.pr k) hp hq.1 hq.2.1 hq.2.2.1 hq.2.2.2
    exact link_pool L (linkK_frame (L k) a1 a2 a3 a4 a5 (fun _ _ => Iff.rfl) (fun _ => rfl)
      (fun _ _ h => h.elim .inl fun h => .inr (.inl h)) (fun _ => rfl) (fun _ => rfl))
  | @pass k q e es fl rest p ha hc hp =>
    obtain ⟨a1, a2, a3, a4, a5⟩ := pool_quiet hn (B.pr k) hp (by simp) (by simp) (by simp) (by simp)
    have LK := L k
    have hok := finalize_ok hn (B.pr k) LK hc hp
    refine link_all L ?_
    rw [finalized_ok _ _ hok]
    refine { ad := ?_, dn := ?_, as := ?_, fn := ?_, rt := ?_ }
    · intro d
      show d ∈ p.added.map Prod.fst ↔ _
      rw [a1, LK.ad d]
      have hg : ∀ j' x, Given (Eos.upd (w.wks k) (owner e)
          { w.wks k (owner e) with fin := (w.wks k (owner e)).fin ++ [number e], waiter := (w.wks k (owner e)).waiter - 1 } j') x ↔
          Given (w.wks k j') x := by
        intro j' x
        by_cases hj' : j' = owner e
        · subst hj'; rw [upd_self]; exact Iff.rfl
        · rw [upd_other _ _ hj']
      simp only [hg]
    · intro j' i
      show Nat.pair j' i ∈ p.done ↔ _
      rw [a2, LK.dn]
      by_cases hj' : j' = owner e
      · subst hj'; rw [upd_self]
      · rw [upd_other _ _ hj']
    · intro j' d hd
      refine a3 _ (LK.as j' d ?_)
      by_cases hj' : j' = owner e
      · subst hj'; rw [upd_self] at hd; exact hd
      · rw [upd_other _ _ hj'] at hd; exact hd
    · intro j' i hi
      by_cases hnew : j' = owner e ∧ i = number e
      · obtain ⟨rfl, rfl⟩ := hnew
        refine ⟨e, ?_, ev_pair e⟩
        have hf := pool_fin hn (B.pr k) hc
        have hmem := hf.2.2.2 e List.mem_cons_self
        obtain ⟨f1, _, _, f4, _⟩ := pool_frame hp
        have e4 : p.ended = (w.inst k).pool.ended := by
          rcases f4 with h | ⟨_, _, _, _, h, _⟩
          · exact h
          · cases h
        refine ⟨(w.inst k).pool.ended.length, by show _ ∈ p.added; rw [a1]; exact hmem, .inr ⟨by show _ = p.ended.length; rw [e4], .inr ?_⟩⟩
        obtain ⟨nd, nr⟩ := pass_once hn (B.pr k) hc
        simp only [Eos.step, hc] at hp
        split at hp
        · split at hp
          · cases hp; exact ⟨q, es, _, rest, rfl, nd, nr⟩
          · cases hp; exact ⟨q, es, _, rest, rfl, nd, nr⟩
        · cases hp
      · have hi' : i ∈ (w.wks k j').fin := by
          by_cases hj' : j' = owner e
          · subst hj'; rw [upd_self] at hi
            rcases List.mem_append.1 hi with h | h
            · exact h
            · exact absurd ⟨rfl, List.mem_singleton.1 h⟩ hnew
          · rw [upd_other _ _ hj'] at hi; exact hi
        obtain ⟨d, h1, h2⟩ := LK.fn j' i hi'
        exact ⟨d, a4 d h1, h2⟩
    · intro j'
      show _ = openRoots p j'
      rw [a5, ← LK.rt j']
      by_cases hj' : j' = owner e
      · subst hj'; rw [upd_self]
      · rw [upd_other _ _ hj']
  | @endTxn k q order cur fl rest p ha hc hp =>
    have LK := L k
    have hok := roots_ok hn (B.pr k) LK hc
    have hf := pool_fin hn (B.pr k) hc
    obtain ⟨f1, f2, f3, f4, f5⟩ := pool_frame hp
    have a1 : p.added = (w.inst k).pool.added := by
      rcases f1 with h | ⟨e, h, _⟩
      · exact h
      · cases h
    have a2 : p.done = (w.inst k).pool.done := by
      rcases f2 with h | ⟨e, h, _⟩
      · exact h
      · cases h
    have a5 : p.gen = (w.inst k).pool.gen := by
      rcases f5 with h | ⟨h, _⟩
      · exact h
      · cases h
    have a4 : ∃ x, p.ended = (w.inst k).pool.ended ++ [x] := by
      simp only [Eos.step] at hp
      split at hp
      · split at hp
        · cases hp; exact ⟨_, rfl⟩
        · cases hp
      · cases hp
    obtain ⟨x, a4⟩ := a4
    have spec := rooted_spec (cw := wcfg c ecap) (rootEvs ((w.inst k).pool.nodes q).evs) (w.wks k) hok
    refine link_all L ?_
    refine { ad := ?_, dn := ?_, as := ?_, fn := ?_, rt := ?_ }
    · intro e
      show e ∈ p.added.map Prod.fst ↔ _
      rw [a1, LK.ad e]
      have hg : ∀ j' d, Given (rooted (wcfg c ecap) (w.wks k) (rootEvs ((w.inst k).pool.nodes q).evs) j') d ↔ Given (w.wks k j') d := by
        intro j' d; rw [spec j']; exact Iff.rfl
      simp only [hg]
    · intro j' i
      show Nat.pair j' i ∈ p.done ↔ _
      rw [a2, LK.dn, spec j']
    · intro j' d hd
      rw [spec j'] at hd
      exact f3 _ (LK.as j' d hd)
    · intro j' i hi
      rw [spec j'] at hi
      obtain ⟨d, h1, h2⟩ := LK.fn j' i hi
      exact ⟨d, passed_step hp (by simp) h1, h2⟩
    · intro j'
      show _ = openRoots p j'
      rw [spec j']
      have := openRoots_end (p' := p) hf.2.2.1 a4 a5 a1 j'
      show (w.wks k j').roots - _ = _
      rw [LK.rt j', this, hf.1]
      omega

theorem link_reach (hn : 0 < c.poolSize) (h : Reach c ecap src w) : Link w := by
  induction h with
  | init => exact link_init
  | step a hr hs ih => exact link_step hn (base_reach hr) ih (goes_of_step hs)

end Verif.Whole
