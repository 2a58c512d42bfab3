import Verif.Whole.Ended
/-
Every event that the commit loop has gone past was taken out of the waiter of its worker.
-/
set_option linter.unusedSimpArgs false
namespace Verif.Whole
open Verif.Eos (Ev Pool)
open Verif.Effects (Inc)
open Verif.Worker (PW It)

variable {c : Eos.Cfg} {ecap : Nat} {src : Nat → List Nat} {w w' : Group}

/-- The transaction of the event has ended, or it is being committed and its loops have gone past the event. -/
def Seen (p : Pool) (e : Ev) : Prop :=
  ∃ g, (e, g) ∈ p.added ∧ (g < p.ended.length ∨ g = p.ended.length ∧
    ∃ q cur fl rest, p.com = .fin q cur fl rest ∧ e ∉ cur ∧ e.part ∉ rest)

section
variable (hn : 0 < c.poolSize) {p p' : Pool} (h : Eos.Reach c p)
include hn h

/-- The transaction on deck is not the one that is committed. -/
theorem fin_lt_gen {q : Nat} {cur : List Ev} {fl : Bool} {rest : List Nat} (h1 : p.com = .fin q cur fl rest) (h2 : p.fwd ≠ .swap) :
    p.ended.length < p.gen := by
  obtain ⟨a, ha, r⟩ := Eos.sim_reach hn h
  have B := Eos.base_reach hn ha
  have F := Eos.fin_reach hn ha
  have hlen : p.ended.length = if a.relinquished = none then a.lo else a.lo + 1 := by
    rw [r.ended, ← List.length_map (f := Prod.fst), F.ended, List.length_range]
  have hc := r.com
  rw [h1] at hc
  cases hac : a.com with
  | fin cur' fl' rest' =>
    have hr : a.relinquished = none := by unfold Eos.A.relinquished; rw [hac]
    rw [if_pos hr] at hlen
    have hst : a.st = a.lo + 1 := by have := B.st; rw [hac] at this; exact this
    have := Eos.lo_lt_gen B (by rw [← r.fwd]; exact h2) hst
    rw [hlen, r.gen]; exact this
  | _ => rw [hac] at hc; simp [Eos.toCom] at hc

/-- Events are gone past one at a time. -/
theorem seen_back {l : Eos.Label} (hl : l ≠ .commitFail true) (hs : Eos.step c p l = some p') {e : Ev} (S : Seen p' e) :
    Seen p e ∨ l = .wait ∧ ∃ q es fl rest, p.com = .fin q (e :: es) fl rest := by
  have hr' : Eos.Reach c p' := .step l h hl hs
  have pc : ∀ a b r, (Eos.produce p a b r).com = p.com := by
    intro a b r; unfold Eos.produce; dsimp only; split <;> rfl
  have pa : ∀ a b r, (Eos.produce p a b r).added = p.added := fun a b r => (produce_frame p a b r).1
  have pe : ∀ a b r, (Eos.produce p a b r).ended = p.ended := fun a b r => (produce_frame p a b r).2.2.2.1
  have same : p'.added = p.added → p'.ended = p.ended → p'.com = p.com → Seen p e := by
    intro h1 h2 h3
    unfold Seen at S
    rw [h1, h2, h3] at S; exact S
  have low : p'.added = p.added → p'.ended = p.ended → (∀ q cur fl rest, p'.com ≠ .fin q cur fl rest) → Seen p e := by
    intro h1 h2 h3
    obtain ⟨g, a1, a2⟩ := S
    rw [h1] at a1; rw [h2] at a2
    rcases a2 with a2 | ⟨_, q, cur, fl, rest, a3, _⟩
    · exact ⟨g, a1, .inl a2⟩
    · exact absurd a3 (h3 _ _ _ _)
  cases l with
  | add d =>
    left
    obtain ⟨g, a1, a2⟩ := S
    have hf : p.fwd = .idle ∧ p'.added = p.added ++ [(d, p.gen)] ∧ p'.ended = p.ended ∧ p'.com = p.com := by
      simp only [Eos.step] at hs
      repeat' split at hs
      all_goals first
        | (cases hs; done)
        | (cases hs; refine ⟨by assumption, rfl, rfl, rfl⟩)
    obtain ⟨f1, f2, f3, f4⟩ := hf
    rw [f3, f4] at a2
    rw [f2] at a1
    rcases List.mem_append.1 a1 with a1 | a1
    · exact ⟨g, a1, a2⟩
    · exfalso
      cases List.mem_singleton.1 a1
      have := (pool_deck hn h f1).2
      rcases a2 with a2 | ⟨a2, q, cur, fl, rest, a3, _⟩
      · omega
      · have := fin_lt_gen hn h a3 (by rw [f1]; simp)
        omega
  | wait =>
    simp only [Eos.step] at hs
    split at hs
    · rename_i q d es flag rest hc
      split at hs
      · have hp : p'.added = p.added ∧ p'.ended = p.ended ∧ ∃ fl, p'.com = .fin q es fl rest := by
          split at hs
          · cases hs; exact ⟨pa _ _ _, pe _ _ _, _, rfl⟩
          · cases hs; exact ⟨rfl, rfl, _, rfl⟩
        obtain ⟨h1, h2, fl', h3⟩ := hp
        by_cases hed : e = d
        · subst hed
          exact .inr ⟨rfl, q, es, flag, rest, hc⟩
        · left
          obtain ⟨g, a1, a2⟩ := S
          rw [h1] at a1; rw [h2, h3] at a2
          rcases a2 with a2 | ⟨a2, q', cur', fl'', rest', a3, a4, a5⟩
          · exact ⟨g, a1, .inl a2⟩
          · cases a3
            refine ⟨g, a1, .inr ⟨a2, q, _, _, _, hc, ?_, a5⟩⟩
            intro hm
            rcases List.mem_cons.1 hm with rfl | hm
            · exact hed rfl
            · exact a4 hm
      · cases hs
    · rename_i q flag tp rest hc
      cases hs
      left
      obtain ⟨g, a1, a2⟩ := S
      dsimp only at a1 a2
      rcases a2 with a2 | ⟨a2, q', cur', fl'', rest', a3, a4, a5⟩
      · exact ⟨g, a1, .inl a2⟩
      · cases a3
        refine ⟨g, a1, .inr ⟨a2, q, _, _, _, hc, by simp, ?_⟩⟩
        intro hm
        rcases List.mem_cons.1 hm with hm | hm
        · refine a4 (Eos.mem_chain.2 ⟨?_, hm⟩)
          rw [(pool_fin hn h hc).1]
          rw [a2] at a1
          exact Eos.mem_evOf.2 a1
        · exact a5 hm
    · cases hs
  | beginCommit order =>
    left
    simp only [Eos.step] at hs
    split at hs
    · rename_i q hc
      split at hs
      · rename_i ho
        cases hs
        obtain ⟨h1, _⟩ := pool_fin hn hr' (q := q) (cur := []) (fl := false) (rest := order) rfl
        obtain ⟨g, a1, a2⟩ := S
        dsimp only [Eos.beginCommit] at a1 a2 h1
        rcases a2 with a2 | ⟨a2, q', cur', fl'', rest', a3, a4, a5⟩
        · exact ⟨g, a1, .inl a2⟩
        · cases a3
          exfalso
          apply a5
          have hm : e ∈ (p.nodes q).evs := by
            have : e ∈ Eos.evOf p.added p.ended.length := by rw [a2] at a1; exact Eos.mem_evOf.2 a1
            rw [← h1] at this
            simpa [Eos.upd] using this
          refine (List.Perm.mem_iff ho).2 ?_
          unfold Eos.Node.parts
          exact List.mem_dedup.2 (List.mem_map.2 ⟨e, hm, rfl⟩)
      · cases hs
    · cases hs
  | endTxn order =>
    left
    simp only [Eos.step] at hs
    split at hs
    · rename_i q fl hc
      split at hs
      · cases hs
        obtain ⟨g, a1, a2⟩ := S
        dsimp only at a1 a2
        rw [List.length_append, List.length_singleton] at a2
        rcases a2 with a2 | ⟨_, q', cur', fl'', rest', a3, _⟩
        · by_cases hg : g < p.ended.length
          · exact ⟨g, a1, .inl hg⟩
          · exact ⟨g, a1, .inr ⟨by omega, q, _, _, _, hc, by simp, by simp⟩⟩
        · cases a3
      · cases hs
    · cases hs
  | release =>
    left
    have ra := relinquish_frame c.poolSize p
    simp only [Eos.step] at hs
    split at hs
    · cases hs; exact low (ra _ _).1 (ra _ _).2.2.2.1 (by intros; simp)
    · cases hs; exact low rfl rfl (by intros; simp)
    · cases hs
  | take =>
    left
    simp only [Eos.step] at hs
    split at hs
    · cases hs; exact low rfl rfl (by intros; simp)
    · cases hs
  | giveBack =>
    left
    simp only [Eos.step] at hs
    split at hs
    · cases hs; exact low rfl rfl (by intros; simp)
    · cases hs
  | commitFail b =>
    left
    simp only [Eos.step] at hs
    split at hs
    · cases hs; refine low rfl rfl ?_; intros; dsimp only; split <;> simp
    · cases hs
  | asyncFail =>
    left
    simp only [Eos.step] at hs
    split at hs
    · cases hs; exact low rfl rfl (by intros; simp)
    · cases hs
  | _ =>
    left
    simp only [Eos.step] at hs
    repeat' split at hs
    all_goals first
      | (cases hs; done)
      | (cases hs; exact same rfl rfl rfl)
      | (cases hs; exact same (pa _ _ _) (pe _ _ _) (pc _ _ _))

end

/-- Every event that was gone past is out of the waiter. -/
def Fins (w : Group) : Prop := ∀ k e, Seen (w.inst k).pool e → number e ∈ (w.wks k (owner e)).fin

theorem fin_mono {cw : Worker.Cfg} {s s' : PW} {l : Worker.Label} (h : Worker.step cw s l = some s') : ∀ i ∈ s.fin, i ∈ s'.fin := by
  intro i hi
  cases l <;> simp only [Worker.step] at h <;> (repeat' split at h) <;>
    first
    | (cases h; done)
    | (simp only [Option.some.injEq] at h; subst h
       first
       | exact hi
       | (unfold Worker.schedIj; split <;> exact hi)
       | exact List.mem_append.2 (.inl hi))
    | (obtain ⟨s1, h1, rfl⟩ := Option.map_eq_some_iff.1 h
       unfold Worker.completeEv at h1
       split at h1
       · cases h1
       · cases h1; exact hi)

theorem fins_set {k j : Nat} {s : PW} (I : Fins w) (h : ∀ i ∈ (w.wks k j).fin, i ∈ s.fin) : Fins (w.set k j s) := by
  intro k' e S
  have := I k' e S
  show number e ∈ (Eos.upd w.wks k (Eos.upd (w.wks k) j s) k' (owner e)).fin
  by_cases hk : k' = k
  · subst hk
    rw [upd_self]
    by_cases hj : owner e = j
    · rw [hj, upd_self]; rw [hj] at this; exact h _ this
    · rw [upd_other _ _ hj]; exact this
  · rw [upd_other _ _ hk]; exact this

theorem fins_move {k : Nat} {i : Inc} (I : Fins w) (h : ∀ e, Seen i.pool e → Seen (w.inst k).pool e) : Fins (w.move k i) := by
  intro k' e S
  have S' : Seen (Eos.upd w.inst k i k').pool e := S
  by_cases hk : k' = k
  · subst hk
    rw [upd_self] at S'
    exact I k' e (h e S')
  · rw [upd_other _ _ hk] at S'
    exact I k' e S'

theorem fins_step (hn : 0 < c.poolSize) (B : Base c ecap src w) (L : Link w) (I : Fins w) (h : Goes c ecap src w w') : Fins w' := by
  cases h with
  | start => exact I
  | crash _ => exact I
  | assign _ _ => exact I
  | @revoke k tp j ha hj => exact fins_set (k := k) (j := j) I fun i => id
  | fetch _ _ _ hs => exact fins_set I (fin_mono hs)
  | ready => exact fins_set I fun i => id
  | own _ _ _ _ _ hs => exact fins_set I (fin_mono hs)
  | @complete k j l s it p _ _ _ _ hs hp =>
    refine fins_move (fins_set I (fin_mono hs)) fun e S => ?_
    rcases seen_back hn (B.pr k) (by simp) hp S with h | ⟨h, _⟩
    · exact h
    · cases h
  | refuse _ _ _ _ hs => exact fins_set I (fin_mono hs)
  | @add k j it buf p s _ _ _ _ hp hs =>
    refine fins_move (fins_set I (fin_mono hs)) fun e S => ?_
    rcases seen_back hn (B.pr k) (by simp) hp S with h | ⟨h, _⟩
    · exact h
    · cases h
  | @emit k j it v p _ _ _ hp =>
    refine fins_move I fun e S => ?_
    rcases seen_back hn (B.pr k) (by simp) hp S with h | ⟨h, _⟩
    · exact h
    · cases h
  | @pass k q e es fl rest p ha hc hp =>
    have hok := finalize_ok hn (B.pr k) (L k) hc hp
    intro k' d S
    have S' : Seen (Eos.upd w.inst k { w.inst k with pool := p } k').pool d := S
    show number d ∈ (Eos.upd w.wks k (finalized (wcfg c ecap) (w.wks k) e) k' (owner d)).fin
    by_cases hk : k' = k
    · subst hk
      rw [upd_self] at S' ⊢
      rw [finalized_ok _ _ hok]
      have hold : Seen (w.inst k').pool d ∨ d = e := by
        rcases seen_back hn (B.pr k') (by simp) hp S' with h | ⟨_, q', es', fl', rest', h⟩
        · exact .inl h
        · rw [hc] at h; cases h; exact .inr rfl
      by_cases ho : owner d = owner e
      · rw [ho, upd_self]
        rcases hold with h | rfl
        · have := I k' d h
          rw [ho] at this
          exact List.mem_append.2 (.inl this)
        · exact List.mem_append.2 (.inr (by simp))
      · rw [upd_other _ _ ho]
        rcases hold with h | rfl
        · exact I k' d h
        · exact absurd rfl ho
    · rw [upd_other _ _ hk] at S' ⊢
      exact I k' d S'
  | @endTxn k q order cur fl rest p ha hc hp =>
    have hok := roots_ok hn (B.pr k) (L k) hc
    intro k' d S
    have S' : Seen (Eos.upd w.inst k { w.inst k with pool := p } k').pool d := S
    show number d ∈ (Eos.upd w.wks k (rooted (wcfg c ecap) (w.wks k) (rootEvs ((w.inst k).pool.nodes q).evs)) k' (owner d)).fin
    by_cases hk : k' = k
    · subst hk
      rw [upd_self] at S' ⊢
      rw [rooted_spec _ _ hok]
      rcases seen_back hn (B.pr k') (by simp) hp S' with h | ⟨h, _⟩
      · exact I k' d h
      · cases h
    · rw [upd_other _ _ hk] at S' ⊢
      exact I k' d S'
  | @pool k l p ha hl hp =>
    refine fins_move I fun e S => ?_
    have hne : l ≠ .commitFail true := by
      rintro rfl
      rcases hl with hl | ⟨hl, _⟩ <;> cases hl
    rcases seen_back hn (B.pr k) hne hp S with h | ⟨rfl, q, es, fl, rest, h⟩
    · exact h
    · rcases hl with hl | ⟨_, hl⟩
      · cases hl
      · exact absurd h (hl _ _ _ _ _)

theorem fins_reach (hn : 0 < c.poolSize) (h : Reach c ecap src w) : Fins w := by
  induction h with
  | init =>
    intro k e S
    obtain ⟨g, h1, _⟩ := S
    simp [Group.init, Inc.start, Eos.Pool.init] at h1
  | step a hr hs ih => exact fins_step hn (base_reach hr) (link_reach hn hr) ih (goes_of_step hs)

end Verif.Whole
