import Verif.Whole.Ended
import Verif.Whole.Spec
import Verif.Fleet.Once
/-
Groups in which partitions are handed over in an orderly way: a transaction has the events of one worker for each partition, so a worker that has
ended leaves nothing behind, and the group of `Verif.Fleet` is a calm one.
-/
set_option linter.unusedSimpArgs false
namespace Verif.Whole
open Verif.Eos (Ev Pool)
open Verif.Effects (Inc)
open Verif.Worker (PW It)

variable {c : Eos.Cfg} {ecap : Nat} {src : Nat → List Nat} {w w' : Group}

theorem done_wk {cw : Worker.Cfg} {s : PW} {l : Worker.Label} (hl : l = .root ∨ ∃ i, l = .finalize i) :
    ((Worker.step cw s l).getD s).wk = s.wk := by
  rcases hl with rfl | ⟨i, rfl⟩ <;> simp only [Worker.step] <;> split <;> rfl

theorem upd_wk {cw : Worker.Cfg} (f : Nat → PW) (j : Nat) {l : Worker.Label} (hl : l = .root ∨ ∃ i, l = .finalize i) (i : Nat) :
    (Eos.upd f j ((Worker.step cw (f j) l).getD (f j)) i).wk = (f i).wk := by
  by_cases h : i = j
  · subst h; rw [upd_self]; exact done_wk hl
  · rw [upd_other _ _ h]

theorem rooted_wk (cw : Worker.Cfg) (f : Nat → PW) (es : List Ev) (j : Nat) : (rooted cw f es j).wk = (f j).wk := by
  unfold rooted
  induction es generalizing f with
  | nil => rfl
  | cons e es ih => rw [List.foldl_cons, ih]; exact upd_wk f (owner e) (.inl rfl) j

theorem set_stopped {k j : Nat} {s : PW} (h : (w.wks k j).wk = .stopped → s.wk = .stopped) {k' j' : Nat} (hs : (w.wks k' j').wk = .stopped) :
    ((w.set k j s).wks k' j').wk = .stopped := by
  rw [set_wks]; split
  · rename_i hh; obtain ⟨rfl, rfl⟩ := hh; exact h hs
  · exact hs

/-- A worker that has ended does not start again. -/
theorem goes_stopped (h : Goes c ecap src w w') {k j : Nat} (hs : (w.wks k j).wk = .stopped) : (w'.wks k j).wk = .stopped := by
  cases h with
  | start => exact hs
  | crash => exact hs
  | assign => exact hs
  | @revoke k0 tp j0 _ _ =>
    exact set_stopped (w := w) (k := k0) (j := j0) (s := { w.wks k0 j0 with revoked := true }) (fun h => h) hs
  | fetch _ _ _ h => exact set_stopped (fun hh => stopped_step h hh) hs
  | ready _ _ _ _ _ h => exact set_stopped (fun hh => by rw [h] at hh; cases hh) hs
  | own _ _ _ _ _ h => exact set_stopped (fun hh => stopped_step h hh) hs
  | complete _ _ _ _ h _ => exact set_stopped (fun hh => stopped_step h hh) hs
  | refuse _ _ _ _ h => exact set_stopped (fun hh => stopped_step h hh) hs
  | add _ _ _ _ _ h => exact set_stopped (fun hh => stopped_step h hh) hs
  | emit => exact hs
  | @pass k0 q e es fl rest p _ _ _ =>
    show (Eos.upd w.wks k0 (finalized (wcfg c ecap) (w.wks k0) e) k j).wk = _
    by_cases hk : k = k0
    · subst hk; rw [upd_self]; exact (upd_wk (w.wks k) (owner e) (.inr ⟨_, rfl⟩) j).trans hs
    · rw [upd_other _ _ hk]; exact hs
  | @endTxn k0 q order cur fl rest p _ _ _ =>
    show (Eos.upd w.wks k0 (rooted (wcfg c ecap) (w.wks k0) _) k j).wk = _
    by_cases hk : k = k0
    · subst hk; rw [upd_self, rooted_wk]; exact hs
    · rw [upd_other _ _ hk]; exact hs
  | pool => exact hs

/-- Consumers and workers come only by `start` and `assign`. -/
theorem goes_who (h : Goes c ecap src w w') :
    (w'.n = w.n ∧ (∀ k, w'.alive k = true → w.alive k = true) ∨ w'.n = w.n + 1 ∧ (∀ k, k ≠ w.n → w'.alive k = w.alive k)) ∧
    (w'.nw = w.nw ∧ w'.part = w.part ∨ ∃ k tp, w.alive k = true ∧ w'.nw = Eos.upd w.nw k (w.nw k + 1) ∧
      w'.part = Eos.upd w.part k (Eos.upd (w.part k) (w.nw k) tp)) := by
  cases h with
  | start =>
    refine ⟨.inr ⟨rfl, fun k hk => ?_⟩, .inl ⟨rfl, rfl⟩⟩
    simp only [Group.alive]
    congr 1
    rw [decide_eq_decide]
    omega
  | @crash k ha =>
    refine ⟨.inl ⟨rfl, fun k' hk' => ?_⟩, .inl ⟨rfl, rfl⟩⟩
    simp only [Group.alive, Bool.and_eq_true] at hk' ⊢
    refine ⟨hk'.1, ?_⟩
    by_cases h : k' = k
    · subst h; rw [upd_self] at hk'; simp at hk'
    · rw [upd_other _ _ h] at hk'; exact hk'.2
  | @assign k tp f ha hc => exact ⟨.inl ⟨rfl, fun _ h => h⟩, .inr ⟨k, tp, ha, rfl, rfl⟩⟩
  | _ => exact ⟨.inl ⟨rfl, fun _ h => h⟩, .inl ⟨rfl, rfl⟩⟩

/-- For each partition an open transaction has events of one worker. -/
def Single (p : Pool) : Prop :=
  ∀ e e' g, (e, g) ∈ p.added → (e', g) ∈ p.added → p.ended.length ≤ g → e.part = e'.part → owner e = owner e'

theorem single_keep {p p' : Pool} (h : Single p) (h1 : p'.added = p.added) (h2 : p.ended.length ≤ p'.ended.length) : Single p' := by
  intro e e' g a b hg hp
  rw [h1] at a b
  exact h e e' g a b (by omega) hp

theorem single_move {k : Nat} {i : Inc} (H : ∀ k, Single (w.inst k).pool) (h : Single i.pool) (k' : Nat) : Single ((w.move k i).inst k').pool := by
  show Single (Eos.upd w.inst k i k').pool
  by_cases hk : k' = k
  · subst hk; rw [upd_self]; exact h
  · rw [upd_other _ _ hk]; exact H k'

theorem single_quiet {p p' : Pool} {l : Eos.Label} (h : Single p) (hs : Eos.step c p l = some p') (hl : ∀ e, l ≠ .add e) : Single p' := by
  obtain ⟨f1, _, _, f4, _⟩ := pool_frame hs
  refine single_keep h ?_ ?_
  · rcases f1 with h | ⟨e, h, _⟩
    · exact h
    · exact absurd h (hl e)
  · rcases f4 with h | ⟨_, _, _, _, _, _, h⟩
    · rw [h]
    · rw [h, List.length_append]; omega

/-- Of two workers for a partition in living consumers one has ended. -/
structure Alone (w : Group) : Prop where
  un : ∀ k, w.n ≤ k → w.nw k = 0
  one : ∀ k1 j1 k2 j2, w.alive k1 = true → w.alive k2 = true → j1 < w.nw k1 → j2 < w.nw k2 → w.part k1 j1 = w.part k2 j2 →
    ¬ (k1 = k2 ∧ j1 = j2) → (w.wks k1 j1).wk = .stopped ∨ (w.wks k2 j2).wk = .stopped
  own : ∀ k, Single (w.inst k).pool

theorem alone_init : Alone (Group.init c) where
  un := fun _ _ => rfl
  one := by intro k1 j1 k2 j2 _ _ h; simp [Group.init] at h
  own := by intro k e e' g h; simp [Group.init, Inc.start, Eos.Pool.init] at h

/-- All events of a worker that has ended are in transactions that have ended. -/
theorem ended_alone (hn : 0 < c.poolSize) (B : Base c ecap src w) (L : Link w) (H : ∀ k, Single (w.inst k).pool) {k j : Nat}
    (hs : (w.wks k j).wk = .stopped) {e : Ev} {g : Nat} (he : (e, g) ∈ (w.inst k).pool.added) (ho : owner e = j) :
    g < (w.inst k).pool.ended.length := by
  by_contra hlt
  refine hlt (ended_of_stopped hn B L hs he fun e' he' hp => ?_)
  rw [← ho]
  exact H k e' e g he' he (by omega) hp

theorem alone_step (hn : 0 < c.poolSize) (B : Base c ecap src w) (L : Link w) (A : Alone w) (h : Goes c ecap src w w') (T : Tidy w w') :
    Alone w' := by
  have hst := fun {k j} => goes_stopped h (k := k) (j := j)
  obtain ⟨hwho, hmade⟩ := goes_who h
  have hlt : ∀ k, w.alive k = true → k < w.n := by
    intro k hk; simp only [Group.alive, Bool.and_eq_true, decide_eq_true_eq] at hk; exact hk.1
  have hun : ∀ k, w'.n ≤ k → w'.nw k = 0 := by
    intro k hk
    have hk' : w.n ≤ k := by rcases hwho with ⟨h1, _⟩ | ⟨h1, _⟩ <;> omega
    rcases hmade with ⟨h1, _⟩ | ⟨k0, _, ha, h1, _⟩
    · rw [h1]; exact A.un k hk'
    · have := hlt _ ha
      rw [h1, upd_other _ _ (by omega)]; exact A.un k hk'
  refine { un := hun, one := ?_, own := ?_ }
  · intro k1 j1 k2 j2 a1 a2 l1 l2 hp hne
    have hal : ∀ k, w'.alive k = true → 0 < w'.nw k → w.alive k = true := by
      intro k hk h0
      rcases hwho with ⟨_, h1⟩ | ⟨hn', h1⟩
      · exact h1 k hk
      · by_cases he : k = w.n
        · exfalso
          rcases hmade with ⟨h2, _⟩ | ⟨k0, _, ha, h2, _⟩
          · rw [h2, A.un k (by omega)] at h0; omega
          · have := hlt _ ha
            rw [h2, upd_other _ _ (by omega), A.un k (by omega)] at h0; omega
        · rw [← h1 k he]; exact hk
    have b1 := hal k1 a1 (by omega)
    have b2 := hal k2 a2 (by omega)
    by_cases c1 : j1 < w.nw k1
    · by_cases c2 : j2 < w.nw k2
      · have hp' : w.part k1 j1 = w.part k2 j2 := by
          rcases hmade with ⟨_, h2⟩ | ⟨k0, tp, _, _, h2⟩
          · rw [h2] at hp; exact hp
          · rw [h2, upd2, upd2, if_neg (by rintro ⟨rfl, rfl⟩; omega), if_neg (by rintro ⟨rfl, rfl⟩; omega)] at hp
            exact hp
        rcases A.one k1 j1 k2 j2 b1 b2 c1 c2 hp' hne with h | h
        · exact .inl (hst h)
        · exact .inr (hst h)
      · have hp1 : w.part k1 j1 = w'.part k1 j1 := by
          rcases hmade with ⟨_, h2⟩ | ⟨k0, tp, _, _, h2⟩
          · rw [h2]
          · rw [h2, upd2, if_neg (by rintro ⟨rfl, rfl⟩; omega)]
        exact .inl (hst (T.made k2 j2 (by omega) l2 k1 j1 b1 c1 (hp1.trans hp)))
    · by_cases c2 : j2 < w.nw k2
      · have hp2 : w.part k2 j2 = w'.part k2 j2 := by
          rcases hmade with ⟨_, h2⟩ | ⟨k0, tp, _, _, h2⟩
          · rw [h2]
          · rw [h2, upd2, if_neg (by rintro ⟨rfl, rfl⟩; omega)]
        exact .inr (hst (T.made k1 j1 (by omega) l1 k2 j2 b2 c2 (hp2.trans hp.symm)))
      · exfalso
        rcases hmade with ⟨h2, _⟩ | ⟨k0, tp, _, h2, _⟩
        · rw [h2] at l1; exact c1 l1
        · rw [h2] at l1 l2
          simp only [Eos.upd] at l1 l2
          split at l1 <;> split at l2 <;> first | omega | (subst_vars; exact hne ⟨rfl, by omega⟩)
  · have H := A.own
    cases h with
    | start => exact H
    | crash => exact H
    | assign => exact H
    | revoke => exact H
    | fetch => exact H
    | ready => exact H
    | own => exact H
    | complete _ _ _ _ _ h => exact single_move H (single_quiet (H _) h (by simp))
    | refuse => exact H
    | @add k j it buf p s ha hj hb hr hp hs =>
      refine single_move H ?_
      obtain ⟨g0, e1, e2, e3⟩ := Fleet.add_gen hn (B.pr k) hp
      have hne : (w.wks k j).wk ≠ .stopped := by
        intro hh
        rw [(stopped_facts (B.wr k j) hh).2.2.1] at hb; cases hb
      have key : ∀ e, (e, g0) ∈ (w.inst k).pool.added → e.part = w.part k j → owner e = j := by
        intro e he hpe
        by_contra hno
        obtain ⟨h1, h2, _⟩ := event_worker L he
        rcases A.one k (owner e) k j ha ha h1 hj (h2.trans hpe) (fun hh => hno hh.2) with h | h
        · have := ended_alone hn B L H h he rfl
          omega
        · exact hne h
      intro e e' g a b hg hpp
      show owner e = owner e'
      change (e, g) ∈ p.added at a
      change (e', g) ∈ p.added at b
      change p.ended.length ≤ g at hg
      rw [e2] at hg
      rw [e1] at a b
      have how : owner (w.ev k j it) = j := owner_pair _ _ _ _
      rcases List.mem_append.1 a with a' | a' <;> rcases List.mem_append.1 b with b' | b'
      · exact H k e e' g a' b' hg hpp
      · obtain ⟨rfl, rfl⟩ := Prod.mk.inj (List.mem_singleton.1 b')
        rw [how]; exact key e a' hpp
      · obtain ⟨rfl, rfl⟩ := Prod.mk.inj (List.mem_singleton.1 a')
        rw [how]; exact (key e' b' hpp.symm).symm
      · obtain ⟨rfl, _⟩ := Prod.mk.inj (List.mem_singleton.1 a')
        obtain ⟨rfl, _⟩ := Prod.mk.inj (List.mem_singleton.1 b')
        rfl
    | emit _ _ _ h => exact single_move H (single_quiet (H _) h (by simp))
    | pass _ _ h => exact single_move H (single_quiet (H _) h (by simp))
    | endTxn _ _ h => exact single_move H (single_quiet (H _) h (by simp))
    | pool _ hl h =>
      refine single_move H (single_quiet (H _) h ?_)
      rintro e rfl
      rcases hl with hl | ⟨hl, _⟩ <;> cases hl

theorem alone_neat (hn : 0 < c.poolSize) (h : Neat c ecap src w) : Alone w := by
  induction h with
  | init => exact alone_init
  | step a hr hs T ih => exact alone_step hn (base_reach hr.reach) (link_reach hn hr.reach) ih (goes_of_step hs) T

/-- The group of `Verif.Fleet` behind it is calm. -/
theorem calm_neat (hn : 0 < c.poolSize) (hsrc : ∀ tp, (src tp).Pairwise (· < ·)) (h : Neat c ecap src w) : Fleet.Calm c src (abs src w) := by
  induction h with
  | init =>
    have : abs src (Group.init c) = Fleet.World.init c := abs_ext rfl rfl rfl (fun _ _ => rfl) rfl
    rw [this]; exact .init
  | @step w w' a hr hs T ih =>
    have B := base_reach hr.reach
    have L := link_reach hn hr.reach
    have A := alone_neat hn hr
    rcases refine_step hsrc B (goes_of_step hs) with h1 | ⟨b, h1, h2⟩
    · rw [h1]; exact ih
    · refine .step b ih ?_ h1
      rcases h2 with h2 | ⟨k, j, hj, hc, hb, hb', rfl⟩
      · cases b with
        | assign k tp x => exact absurd rfl (h2 k tp x)
        | _ => exact trivial
      · refine ⟨T.read k j hb hb', fun k' ha' => ?_⟩
        have hak : w.alive k = true := by
          simp only [Fleet.step] at h1
          split at h1
          · rename_i hh; exact hh.1
          · cases h1
        have hoth : ∀ j', j' < w.nw k' → w.part k' j' = w.part k j → ¬ (k' = k ∧ j' = j) → (w.wks k' j').wk = .stopped := by
          intro j' hj' hp hne
          rcases A.one k' j' k j ha' hak hj' hj hp hne with h | h
          · exact h
          · rw [hb] at h; cases h
        refine ⟨?_, ?_⟩
        · show (w.cur k' (w.part k j)).bind (fun j' => todo (src (w.part k j)) (w.wks k' j')) = none
          cases hcc : w.cur k' (w.part k j) with
          | none => rfl
          | some j' =>
            obtain ⟨q1, q2, q3⟩ := (B.cu _ _ _).1 hcc
            by_cases he : k' = k ∧ j' = j
            · obtain ⟨rfl, rfl⟩ := he
              simp [todo, hb]
            · have := (stopped_facts (B.wr k' j') (hoth j' q1 q2 he)).2.1
              rw [q3] at this; cases this
        · rintro ⟨e, g, b1, b2, b3, b4⟩
          obtain ⟨q1, q2, it, q3, _⟩ := event_worker L b1
          by_cases he : k' = k ∧ owner e = j
          · obtain ⟨rfl, rfl⟩ := he
            rw [((Worker.invD_reach (B.wr k' _) (asc_of hsrc B k' _)).b hb).1] at q3
            cases q3
          · have hst := hoth (owner e) q1 (q2.trans b2) he
            have hlt := ended_alone hn B L A.own hst b1 rfl
            obtain ⟨o, ho⟩ := Option.ne_none_iff_exists'.1 b3
            have := Marks.committed_of_ended hn (B.pr k') b1
              (by rw [(Eos.C04_in_order hn (B.pr k')).1, List.mem_range]; exact hlt) ho
            exact b4 this

end Verif.Whole
