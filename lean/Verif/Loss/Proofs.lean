import Verif.Loss.Spec
import Verif.Meter.Proofs
import Verif.Marks.Proofs
/-
Proofs for C84.
-/
set_option linter.unusedSimpArgs false
namespace Verif.Loss
open Verif.Eos

/-- The invariant: every record given to a client is in flight, stored or failed; what is in flight belongs to a transaction that has not ended;
every error is in the channel, was handled, or was dropped when the channel was full. -/
structure L (n : Nat) (s : St) : Prop where
  parts : (s.flying.map Prod.snd ++ s.stored ++ s.failed).Perm (List.range s.pool.sent.length)
  fly : ∀ x ∈ s.flying, ∃ o, s.pool.sent[x.2]? = some o ∧ x.1 = o.gen % n ∧ o.gen ∉ s.pool.ended.map Prod.fst
  errs : s.failed.Perm (s.errs ++ s.told ++ s.dropped)
  full : s.dropped ≠ [] → cap ≤ s.failed.length

theorem l_init (c : Cfg) : L c.poolSize (St.init c) := by
  refine ⟨?_, ?_, ?_, ?_⟩ <;> simp [St.init, Pool.init]

theorem perm_take {α : Type} {l : List α} {i : Nat} {x : α} (h : l[i]? = some x) : (x :: l.eraseIdx i).Perm l := by
  induction l generalizing i with
  | nil => simp at h
  | cons y l ih =>
    cases i with
    | zero => simp only [List.getElem?_cons_zero, Option.some.injEq] at h; subst h; exact .refl _
    | succ i =>
      simp only [List.getElem?_cons_succ] at h
      rw [List.eraseIdx_cons_succ]
      exact (List.Perm.swap _ _ _).trans ((ih h).cons _)

theorem l_ends {n : Nat} {s s' : St} {i : Nat} {ok : Bool} (hL : L n s) (h : ends s i ok = some s') :
    L n s' ∧ s'.pool = s.pool := by
  unfold ends at h
  split at h
  · simp at h
  rename_i p k hi
  have hfl : ((k :: (s.flying.eraseIdx i).map Prod.snd)).Perm (s.flying.map Prod.snd) := by
    have := (perm_take hi).map Prod.snd
    simpa using this
  have hsub : ∀ x ∈ s.flying.eraseIdx i, x ∈ s.flying := fun x hx => List.mem_of_mem_eraseIdx hx
  have hp1 : ((s.flying.eraseIdx i).map Prod.snd ++ s.stored ++ (s.failed ++ [k])).Perm (List.range s.pool.sent.length) := by
    refine List.Perm.trans ?_ hL.parts
    refine List.Perm.trans ?_ ((hfl.append_right s.stored).append_right s.failed)
    rw [List.perm_iff_count]; intro a; simp [List.count_append, List.count_cons]; omega
  have hp2 : ((s.flying.eraseIdx i).map Prod.snd ++ (s.stored ++ [k]) ++ s.failed).Perm (List.range s.pool.sent.length) := by
    refine List.Perm.trans ?_ hp1
    rw [List.perm_iff_count]; intro a; simp [List.count_append, List.count_cons]
  dsimp only at h
  split at h
  · cases h
    exact ⟨⟨hp2, fun x hx => hL.fly x (hsub x hx), hL.errs, hL.full⟩, rfl⟩
  · split at h
    · cases h
      refine ⟨⟨hp1, fun x hx => hL.fly x (hsub x hx), ?_, ?_⟩, rfl⟩
      · refine (hL.errs.append_right [k]).trans ?_
        rw [List.perm_iff_count]; intro a; simp [List.count_append, List.count_cons]; omega
      · intro hd
        have := hL.full hd
        simp; omega
    · rename_i hc
      cases h
      refine ⟨⟨hp1, fun x hx => hL.fly x (hsub x hx), ?_, ?_⟩, rfl⟩
      · refine (hL.errs.append_right [k]).trans ?_
        rw [List.perm_iff_count]; intro a; simp [List.count_append, List.count_cons]
      · intro _
        have := hL.errs.length_eq
        simp only [List.length_append] at this ⊢
        omega

theorem l_handle {c : Cfg} {n : Nat} {s s' : St} {cont : Bool} (hL : L n s) (h : handle c s cont = some s') :
    L n s' ∧ (s'.pool = s.pool ∨ Eos.step c s.pool .asyncFail = some s'.pool) := by
  unfold handle at h
  split at h
  · rename_i k errs hc he
    have hp : s.failed.Perm (errs ++ (s.told ++ [k]) ++ s.dropped) := by
      refine hL.errs.trans ?_
      rw [he, List.perm_iff_count]; intro a; simp [List.count_append, List.count_cons]; omega
    dsimp only at h
    split at h
    · cases h
      exact ⟨⟨hL.parts, hL.fly, hp, hL.full⟩, .inl rfl⟩
    · obtain ⟨p, hp', rfl⟩ := Option.map_eq_some_iff.1 h
      have hq : p.sent = s.pool.sent ∧ p.ended = s.pool.ended := by
        unfold Eos.step at hp'
        rw [hc] at hp'
        cases hp'
        exact ⟨rfl, rfl⟩
      refine ⟨⟨?_, ?_, hp, hL.full⟩, .inr hp'⟩
      · dsimp only; rw [hq.1]; exact hL.parts
      · dsimp only; rw [hq.1, hq.2]; exact hL.fly
  · simp at h

/-- A step of the pool. -/
theorem l_pool {c : Cfg} (hn : 0 < c.poolSize) {s s' : St} {l : Label} (hl : l ≠ .commitFail true) (hr : Eos.Reach c s.pool)
    (hL : L c.poolSize s) (h : step c s (.pool l) = some s') :
    L c.poolSize s' ∧ Eos.Reach c s'.pool := by
  obtain ⟨a, ha, r⟩ := sim_reach hn hr
  have B := base_reach hn ha
  have O := order_reach hn ha
  have F := fin_reach hn ha
  unfold step at h
  simp only at h
  split at h
  · simp at h
  rename_i hg
  obtain ⟨p', hp, rfl⟩ := Option.map_eq_some_iff.1 h
  refine ⟨?_, .step l hr hl hp⟩
  obtain ⟨a', ha', r'⟩ := sim_step hn l hl B O r hp
  obtain ⟨m, g, hm1, hm2, hm3⟩ := Meter.given_spec l B r ha'
  have hsent : p'.sent = s.pool.sent ++ m := by rw [r'.sent, r.sent, hm1]
  have hgiven : Meter.given s.pool p' = m := by unfold Meter.given; rw [hsent, List.drop_left]
  have hge : m ≠ [] → g ∉ s.pool.ended.map Prod.fst := by
    intro hm hc
    obtain ⟨k1, k2, k3, k4⟩ := hm2 hm
    rw [r.ended, F.ended, List.mem_range] at hc
    split at hc
    · omega
    · rename_i hrel
      have : g = a.lo := by omega
      have := k3 this
      unfold A.relinquished at hrel
      generalize a.com = cm at hrel this
      cases cm <;> simp [Meter.ph] at hrel this
  refine ⟨?_, ?_, hL.errs, hL.full⟩
  · dsimp only
    rw [hgiven, hsent, List.length_append, List.range_add, ← List.range'_eq_map_range]
    refine List.Perm.trans ?_ (hL.parts.append_right _)
    rw [List.map_append, List.map_map]
    have : (Prod.snd ∘ fun k => (Meter.sender c s.pool l, k)) = (id : Nat → Nat) := rfl
    rw [this, List.map_id, List.perm_iff_count]
    intro a
    simp only [List.count_append]; omega
  · intro x hx
    dsimp only at hx ⊢
    have hold : ∀ o : Out, o.gen ∉ s.pool.ended.map Prod.fst → (∀ q f o', s.pool.com = .fin q [] f [] → l = .endTxn o' → o.gen ≠ s.pool.nodeGen q) →
        o.gen ∉ p'.ended.map Prod.fst := by
      intro o h1 h2
      rcases Marks.ended_step hp with ⟨e, _⟩ | ⟨q, f, o', hl', hc, e⟩
      · rw [e]; exact h1
      · rw [e, List.map_append, List.mem_append]
        rintro (h3 | h3)
        · exact h1 h3
        · simp only [List.map_cons, List.map_nil, List.mem_singleton] at h3
          exact h2 q f o' hc hl' h3
    rcases List.mem_append.1 hx with hxf | hx
    · obtain ⟨o, k1, k2, k3⟩ := hL.fly x hxf
      refine ⟨o, ?_, k2, hold o k3 ?_⟩
      · rw [hsent, List.getElem?_append_left]
        · exact k1
        · exact (List.getElem?_eq_some_iff.1 k1).1
      · intro q f o' hc hl' he
        subst hl'
        have hf : flushed s (.endTxn o') = true := by
          cases hf : flushed s (.endTxn o') with
          | true => rfl
          | false => exact absurd (.inr hf) hg
        unfold flushed at hf
        rw [hc] at hf
        simp only [Bool.not_eq_true', List.any_eq_false, decide_eq_true_eq] at hf
        apply hf x hxf
        rw [k2, he]
        have hcom := r.com
        rw [hc] at hcom
        generalize hcm : a.com = cm at hcom
        cases cm <;> simp [toCom] at hcom
        rw [hcom.1]
        have hst := B.st
        rw [hcm] at hst
        dsimp only at hst
        have := B.top
        have hlg : a.lo ≤ a.gen := by
          have hh : a.top ≤ a.gen + 1 := by unfold A.top; split <;> omega
          omega
        rw [r.nodeGen a.lo (Nat.le_refl _) hlg]
    · obtain ⟨k, hk, rfl⟩ := List.mem_map.1 hx
      rw [hgiven] at hk
      have hne : m ≠ [] := by
        rintro rfl
        simp at hk
      obtain ⟨j, hj, rfl⟩ : ∃ j, j < m.length ∧ k = s.pool.sent.length + j := by
        rw [List.mem_range'_1] at hk
        exact ⟨k - s.pool.sent.length, by omega, by omega⟩
      have hmj : m[j]? = some m[j] := List.getElem?_eq_getElem hj
      have hgj : m[j].gen = g := hm3 _ (List.getElem_mem hj)
      obtain ⟨k1, k2, k3, k4⟩ := hm2 hne
      refine ⟨m[j], ?_, ?_, hold _ (by rw [hgj]; exact hge hne) ?_⟩
      · rw [hsent, List.getElem?_append_right (by omega), Nat.add_sub_cancel_left]; exact hmj
      · rw [hgj]; exact k4
      · intro q f o' hc hl' he
        subst hl'
        have : p'.sent = s.pool.sent := by
          unfold Eos.step at hp
          rw [hc] at hp
          simp only at hp
          split at hp
          · cases hp; rfl
          · simp at hp
        rw [hsent] at this
        exact hne (by simpa using this)

theorem reach_l {c : Cfg} (hn : 0 < c.poolSize) {s : St} (h : Reach c s) : L c.poolSize s ∧ Eos.Reach c s.pool := by
  induction h with
  | init => exact ⟨l_init c, .init⟩
  | @step s s' l _ hl hs ih =>
    cases l with
    | pool l => exact l_pool hn (fun e => hl (by rw [e])) ih.2 ih.1 hs
    | ends i ok =>
      obtain ⟨h1, h2⟩ := l_ends ih.1 hs
      exact ⟨h1, by rw [h2]; exact ih.2⟩
    | handle cont =>
      obtain ⟨h1, h2⟩ := l_handle ih.1 hs
      refine ⟨h1, ?_⟩
      rcases h2 with h2 | h2
      · rw [h2]; exact ih.2
      · exact .step .asyncFail ih.2 (by simp) h2

/-- A record of an ended transaction was stored or failed. -/
theorem ended_landed {c : Cfg} (hn : 0 < c.poolSize) {s : St} (h : Reach c s) {k : Nat} {o : Out} (hk : s.pool.sent[k]? = some o)
    (he : o.gen ∈ s.pool.ended.map Prod.fst) : (k ∈ s.stored ∧ k ∉ s.failed) ∨ (k ∈ s.failed ∧ k ∉ s.stored) := by
  have hL := (reach_l hn h).1
  have hlt : k < s.pool.sent.length := (List.getElem?_eq_some_iff.1 hk).1
  have hnd : (s.flying.map Prod.snd ++ s.stored ++ s.failed).Nodup := hL.parts.nodup_iff.2 List.nodup_range
  have hm : k ∈ s.flying.map Prod.snd ++ s.stored ++ s.failed := hL.parts.mem_iff.2 (List.mem_range.2 hlt)
  have hdis := (List.nodup_append.1 hnd).2.2
  rcases List.mem_append.1 hm with hm | hm
  · rcases List.mem_append.1 hm with hm' | hm'
    · obtain ⟨x, hx, rfl⟩ := List.mem_map.1 hm'
      obtain ⟨o', k1, _, k3⟩ := hL.fly x hx
      rw [hk] at k1
      cases k1
      exact absurd he k3
    · exact .inl ⟨hm', fun hf => hdis _ hm _ hf rfl⟩
  · exact .inr ⟨hm, fun hs => hdis _ (List.mem_append_right _ hs) _ hm rfl⟩

end Verif.Loss
