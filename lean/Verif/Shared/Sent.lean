import Verif.Shared.Once
/-
Proofs for C111: what is received has been sent.
-/
namespace Verif.Shared
open Verif.Eos (upd)

variable {pt : Nat → Nat} {s s' : St}

/-- What the state says is on its way has been sent. -/
structure Sent (s : St) : Prop where
  buf : ∀ e, e < s.born → .buffer e ∈ sends s.tr
  inp : ∀ e, e < s.born → s.w e ≠ .pushed → .input e ∈ sends s.tr
  giv : ∀ e b, s.given e = some b → .given e ∈ sends s.tr
  don : ∀ e, s.closed e = true → .done e ∈ sends s.tr
  nod : ∀ n t, s.node n = .queued t → .node t ∈ sends s.tr
  bac : ∀ n t, s.node n = .free (some t) → .back t ∈ sends s.tr

theorem sends_of_mem {l : List Op} {m : Msg} (h : m ∈ sends l) : ∃ (i : Nat) (g : Gor), i < l.length ∧ l[i]? = some (.snd g m) := by
  unfold sends at h
  rw [List.mem_filterMap] at h
  obtain ⟨a, ha, hm⟩ := h
  obtain ⟨i, hi, hg⟩ := List.getElem_of_mem ha
  cases a <;> simp at hm
  subst hm
  exact ⟨i, _, hi, by rw [List.getElem?_eq_getElem hi, hg]⟩

/-- In every step: what is on its way afterwards has been sent, and what is received had been sent before. -/
theorem sent_step (I : Sent s) {x : Act} (h : step pt s x = some s') :
    Sent s' ∧ ∃ l, s'.tr = s.tr ++ l ∧ ∀ (k : Nat) g m, l[k]? = some (.rcv g m) → m ∈ sends (s.tr ++ l.take k) := by
  have mono : ∀ {m : Msg} {l l' : List Op}, m ∈ sends l → m ∈ sends (l ++ l') := by
    intro m l l' hm; rw [sends_append]; exact List.mem_append_left _ hm
  have last : ∀ {m : Msg} {l l' : List Op}, m ∈ sends l' → m ∈ sends (l ++ l') := by
    intro m l l' hm; rw [sends_append]; exact List.mem_append_right _ hm
  cases x with
  | create k =>
    cases h
    refine ⟨⟨?_, ?_, fun e b h => mono (I.giv e b h), fun e h => mono (I.don e h), fun n t h => mono (I.nod n t h), fun n t h => mono (I.bac n t h)⟩, _, rfl, ?_⟩
    · intro e he
      by_cases h : e = s.born
      · subst h; exact last (by simp [sends])
      · exact mono (I.buf e (by have : e < s.born + 1 := he; omega))
    · intro e he hw
      have hw' : upd s.w s.born .pushed e ≠ .pushed := hw
      by_cases h : e = s.born
      · subst h; rw [upd_self] at hw'; exact absurd rfl hw'
      · rw [upd_other _ _ h] at hw'
        exact mono (I.inp e (by have : e < s.born + 1 := he; omega) hw')
    · intro k g m hk
      have := List.mem_of_getElem? hk
      simp at this
  | push e =>
    simp only [step] at h
    split at h
    · cases h
      refine ⟨⟨fun e h => mono (I.buf e h), ?_, fun e b h => mono (I.giv e b h), fun e h => mono (I.don e h), fun n t h => mono (I.nod n t h), fun n t h => mono (I.bac n t h)⟩, _, rfl, ?_⟩
      · intro e' he hw
        by_cases h : e' = e
        · subst h; exact last (by simp [sends])
        · have hw' : upd s.w e .queued e' ≠ .pushed := hw
          rw [upd_other _ _ h] at hw'
          exact mono (I.inp e' he hw')
      · intro k g m hk
        have := List.mem_of_getElem? hk
        simp at this
    · cases h
  | recv e =>
    simp only [step] at h
    split at h
    · rename_i hc
      cases h
      refine ⟨⟨fun e h => mono (I.buf e h), fun e h h' => mono (I.inp e h h'), fun e b h => mono (I.giv e b h), fun e h => mono (I.don e h), fun n t h => mono (I.nod n t h), fun n t h => mono (I.bac n t h)⟩, _, rfl, ?_⟩
      intro k g m hk
      have := List.mem_of_getElem? hk
      simp at this
      obtain ⟨-, rfl⟩ := this
      exact mono (I.buf e hc.1)
    · cases h
  | refuse e =>
    simp only [step] at h
    split at h
    · cases h
      refine ⟨⟨fun e h => mono (I.buf e h), fun e h h' => mono (I.inp e h h'), ?_, fun e h => mono (I.don e h), fun n t h => mono (I.nod n t h), fun n t h => mono (I.bac n t h)⟩, _, rfl, ?_⟩
      · intro e' b hb
        by_cases h : e' = e
        · subst h; exact last (by simp [sends])
        · have hb' : upd s.given e (some false) e' = some b := hb
          rw [upd_other _ _ h] at hb'
          exact mono (I.giv e' b hb')
      · intro k g m hk
        have := List.mem_of_getElem? hk
        simp at this
    · cases h
  | link e n =>
    simp only [step] at h
    split at h
    · cases h
      refine ⟨⟨fun e h => mono (I.buf e h), fun e h h' => mono (I.inp e h h'), fun e b h => mono (I.giv e b h), fun e h => mono (I.don e h), fun n t h => mono (I.nod n t h), fun n t h => mono (I.bac n t h)⟩, _, rfl, ?_⟩
      intro k g m hk
      have := List.mem_of_getElem? hk
      unfold linkOps at this
      split at this <;> simp at this
    · cases h
  | give e =>
    simp only [step] at h
    split at h
    · split at h
      · cases h
        refine ⟨⟨fun e h => mono (I.buf e h), fun e h h' => mono (I.inp e h h'), ?_, fun e h => mono (I.don e h), fun n t h => mono (I.nod n t h), fun n t h => mono (I.bac n t h)⟩, _, rfl, ?_⟩
        · intro e' b hb
          by_cases h : e' = e
          · subst h; exact last (by simp [sends])
          · have hb' : upd s.given e (some true) e' = some b := hb
            rw [upd_other _ _ h] at hb'
            exact mono (I.giv e' b hb')
        · intro k g m hk
          have := List.mem_of_getElem? hk
          simp at this
      · cases h
    · cases h
  | flush n =>
    simp only [step] at h
    split at h
    · cases h
      refine ⟨⟨fun e h => mono (I.buf e h), fun e h h' => mono (I.inp e h h'), fun e b h => mono (I.giv e b h), fun e h => mono (I.don e h), ?_, ?_⟩, _, rfl, ?_⟩
      · intro n' t hn
        have hn' : upd s.node n (.queued s.msgs) n' = .queued t := hn
        by_cases h : n' = n
        · subst h; rw [upd_self] at hn'; cases hn'; exact last (by simp [sends])
        · rw [upd_other _ _ h] at hn'; exact mono (I.nod n' t hn')
      · intro n' t hn
        have hn' : upd s.node n (.queued s.msgs) n' = .free (some t) := hn
        by_cases h : n' = n
        · subst h; rw [upd_self] at hn'; cases hn'
        · rw [upd_other _ _ h] at hn'; exact mono (I.bac n' t hn')
      · intro k g m hk
        have := List.mem_of_getElem? hk
        simp at this
    · cases h
  | swapIn n =>
    have q : ∀ (l : List Op), Sent { s with tr := s.tr ++ l, node := upd s.node n .deck, swap := false } := by
      intro l
      refine ⟨fun e h => mono (I.buf e h), fun e h h' => mono (I.inp e h h'), fun e b h => mono (I.giv e b h), fun e h => mono (I.don e h), ?_, ?_⟩
      · intro n' t hn
        have hn' : upd s.node n .deck n' = .queued t := hn
        by_cases h : n' = n
        · subst h; rw [upd_self] at hn'; cases hn'
        · rw [upd_other _ _ h] at hn'; exact mono (I.nod n' t hn')
      · intro n' t hn
        have hn' : upd s.node n .deck n' = .free (some t) := hn
        by_cases h : n' = n
        · subst h; rw [upd_self] at hn'; cases hn'
        · rw [upd_other _ _ h] at hn'; exact mono (I.bac n' t hn')
    simp only [step] at h
    split at h
    · split at h
      · cases h
        exact ⟨by simpa using q [], [], by simp, by simp⟩
      · rename_i t hn
        cases h
        refine ⟨q _, _, rfl, ?_⟩
        intro k g m hk
        have := List.mem_of_getElem? hk
        simp at this
        obtain ⟨-, rfl⟩ := this
        exact mono (I.bac n t hn)
      · cases h
    · cases h
  | takeNode n =>
    simp only [step] at h
    split at h
    · rename_i t ht
      split at h
      · cases h
        refine ⟨⟨fun e h => mono (I.buf e h), fun e h h' => mono (I.inp e h h'), fun e b h => mono (I.giv e b h), fun e h => mono (I.don e h), ?_, ?_⟩, _, rfl, ?_⟩
        · intro n' t hn
          have hn' : upd s.node n .commit n' = .queued t := hn
          by_cases h : n' = n
          · subst h; rw [upd_self] at hn'; cases hn'
          · rw [upd_other _ _ h] at hn'; exact mono (I.nod n' t hn')
        · intro n' t hn
          have hn' : upd s.node n .commit n' = .free (some t) := hn
          by_cases h : n' = n
          · subst h; rw [upd_self] at hn'; cases hn'
          · rw [upd_other _ _ h] at hn'; exact mono (I.bac n' t hn')
        · intro k g m hk
          have := List.mem_of_getElem? hk
          simp at this
          obtain ⟨-, rfl⟩ := this
          exact mono (I.nod n t ht)
      · cases h
    · cases h
  | visit e =>
    simp only [step] at h
    split at h
    · split at h
      · rename_i hc
        cases h
        refine ⟨⟨fun e h => mono (I.buf e h), fun e h h' => mono (I.inp e h h'), fun e b h => mono (I.giv e b h), fun e h => mono (I.don e h), fun n t h => mono (I.nod n t h), fun n t h => mono (I.bac n t h)⟩, _, rfl, ?_⟩
        intro k g m hk
        have := List.mem_of_getElem? hk
        simp at this
        obtain ⟨-, rfl⟩ := this
        exact mono (I.don e hc.2.2.1)
      · cases h
    · cases h
  | timeout e =>
    simp only [step] at h
    split at h
    · rename_i n _
      split at h
      · cases h
        refine ⟨⟨fun e h => mono (I.buf e h), fun e h h' => mono (I.inp e h h'), fun e b h => mono (I.giv e b h), fun e h => mono (I.don e h), ?_, ?_⟩, _, rfl, ?_⟩
        · intro n' t hn
          have hn' : upd s.node n .lost n' = .queued t := hn
          by_cases h : n' = n
          · subst h; rw [upd_self] at hn'; cases hn'
          · rw [upd_other _ _ h] at hn'; exact mono (I.nod n' t hn')
        · intro n' t hn
          have hn' : upd s.node n .lost n' = .free (some t) := hn
          by_cases h : n' = n
          · subst h; rw [upd_self] at hn'; cases hn'
          · rw [upd_other _ _ h] at hn'; exact mono (I.bac n' t hn')
        · intro k g m hk
          have := List.mem_of_getElem? hk
          simp at this
      · cases h
    · cases h
  | clear n =>
    simp only [step] at h
    split at h
    · cases h
      refine ⟨⟨fun e h => ?_, fun e h h' => ?_, fun e b h => ?_, fun e h => ?_, ?_, ?_⟩, clearOps (s.mem n) ++ [.snd .com (.back s.msgs)], by simp, ?_⟩
      · exact mono (mono (I.buf e h))
      · exact mono (mono (I.inp e h h'))
      · exact mono (mono (I.giv e b h))
      · exact mono (mono (I.don e h))
      · intro n' t hn
        have hn' : upd s.node n (.free (some s.msgs)) n' = .queued t := hn
        by_cases h : n' = n
        · subst h; rw [upd_self] at hn'; cases hn'
        · rw [upd_other _ _ h] at hn'; exact mono (mono (I.nod n' t hn'))
      · intro n' t hn
        have hn' : upd s.node n (.free (some s.msgs)) n' = .free (some t) := hn
        by_cases h : n' = n
        · subst h; rw [upd_self] at hn'; cases hn'; exact last (by simp [sends])
        · rw [upd_other _ _ h] at hn'; exact mono (mono (I.bac n' t hn'))
      · intro k g m hk
        have := List.mem_of_getElem? hk
        rw [List.mem_append] at this
        rcases this with h | h
        · unfold clearOps at h
          rw [List.mem_flatMap] at h
          obtain ⟨e, -, he⟩ := h
          simp at he
        · simp at h
    · cases h
  | take e =>
    simp only [step] at h
    split at h
    · rename_i hc
      have hi : .input e ∈ sends s.tr := I.inp e hc.1 (by rw [hc.2]; simp)
      cases h
      refine ⟨⟨fun e h => mono (I.buf e h), ?_, fun e b h => mono (I.giv e b h), fun e h => mono (I.don e h), fun n t h => mono (I.nod n t h), fun n t h => mono (I.bac n t h)⟩, _, rfl, ?_⟩
      · intro e' he hw
        by_cases h : e' = e
        · subst h; exact mono hi
        · have hw' : upd s.w e .taken e' ≠ .pushed := hw
          rw [upd_other _ _ h] at hw'
          exact mono (I.inp e' he hw')
      · intro k g m hk
        have := List.mem_of_getElem? hk
        simp at this
        obtain ⟨-, rfl⟩ := this
        exact mono hi
    · cases h
  | assign e =>
    simp only [step] at h
    split at h
    · rename_i hc
      split at h
      · cases h
      · rename_i b hb
        have hi : .input e ∈ sends s.tr := I.inp e hc.1 (by rw [hc.2]; simp)
        cases h
        refine ⟨⟨fun e h => mono (I.buf e h), ?_, fun e b h => mono (I.giv e b h), fun e h => mono (I.don e h), fun n t h => mono (I.nod n t h), fun n t h => mono (I.bac n t h)⟩, _, rfl, ?_⟩
        · intro e' he hw
          by_cases h : e' = e
          · subst h; exact mono hi
          · have hw' : upd s.w e .assigned e' ≠ .pushed := hw
            rw [upd_other _ _ h] at hw'
            exact mono (I.inp e' he hw')
        · intro k g m hk
          have := List.mem_of_getElem? hk
          simp at this
          obtain ⟨-, rfl⟩ := this
          exact mono (I.giv e b hb)
    · cases h
  | use g e f =>
    simp only [step] at h
    split at h
    · cases h
      refine ⟨⟨fun e h => mono (I.buf e h), fun e h h' => mono (I.inp e h h'), fun e b h => mono (I.giv e b h), fun e h => mono (I.don e h), fun n t h => mono (I.nod n t h), fun n t h => mono (I.bac n t h)⟩, _, rfl, ?_⟩
      intro k g m hk
      have := List.mem_of_getElem? hk
      simp at this
    · cases h
  | pass g g' e =>
    simp only [step] at h
    split at h
    · cases h
      refine ⟨⟨fun e h => mono (I.buf e h), fun e h h' => mono (I.inp e h h'), fun e b h => mono (I.giv e b h), fun e h => mono (I.don e h), fun n t h => mono (I.nod n t h), fun n t h => mono (I.bac n t h)⟩, _, rfl, ?_⟩
      intro k g m hk
      match k with
      | 0 => simp at hk
      | 1 =>
        simp at hk
        obtain ⟨-, rfl⟩ := hk
        exact last (by simp [sends])
      | k + 2 => simp at hk
    · cases h
  | finish e =>
    simp only [step] at h
    split at h
    · cases h
      refine ⟨⟨fun e h => mono (I.buf e h), fun e h h' => mono (I.inp e h h'), fun e b h => mono (I.giv e b h), ?_, fun n t h => mono (I.nod n t h), fun n t h => mono (I.bac n t h)⟩, _, rfl, ?_⟩
      · intro e' hb
        by_cases h : e' = e
        · subst h; exact last (by simp [sends])
        · have hb' : upd s.closed e true e' = true := hb
          rw [upd_other _ _ h] at hb'
          exact mono (I.don e' hb')
      · intro k g m hk
        have := List.mem_of_getElem? hk
        simp at this
    · cases h

theorem sent_reach {poolSize : Nat} (h : Reach pt poolSize s) :
    Sent s ∧ ∀ (j : Nat) g m, s.tr[j]? = some (Op.rcv g m) → ∃ i g', i < j ∧ s.tr[i]? = some (Op.snd g' m) := by
  induction h with
  | init =>
    refine ⟨⟨?_, ?_, ?_, ?_, ?_, ?_⟩, ?_⟩
    · intro e he; simp [St.init] at he
    · intro e he; simp [St.init] at he
    · intro e b he; simp [St.init] at he
    · intro e he; simp [St.init] at he
    · intro n t h
      simp only [St.init] at h
      split at h <;> first | cases h | (split at h <;> cases h)
    · intro n t h
      simp only [St.init] at h
      split at h <;> first | cases h | (split at h <;> cases h)
    · intro j g m h; simp [St.init] at h
  | step x _ hx ih =>
    obtain ⟨h1, l, hl, hr⟩ := sent_step ih.1 hx
    refine ⟨h1, ?_⟩
    intro j g m hj
    rw [hl] at hj ⊢
    rename_i s0 s1 _
    by_cases hlt : j < s0.tr.length
    · rw [List.getElem?_append_left hlt] at hj
      obtain ⟨i, g', hi, hg⟩ := ih.2 j g m hj
      exact ⟨i, g', hi, by rw [List.getElem?_append_left (by omega)]; exact hg⟩
    · rw [List.getElem?_append_right (by omega)] at hj
      obtain ⟨i, g', hi, hg⟩ := sends_of_mem (hr _ _ _ hj)
      have hk : j - s0.tr.length < l.length := by
        by_contra h
        rw [List.getElem?_eq_none (by omega)] at hj; cases hj
      rw [List.length_append, List.length_take] at hi
      refine ⟨i, g', by omega, ?_⟩
      by_cases h2 : i < s0.tr.length
      · rw [List.getElem?_append_left h2] at hg ⊢; exact hg
      · rw [List.getElem?_append_right (by omega)] at hg ⊢
        rw [List.getElem?_take] at hg
        split at hg
        · exact hg
        · cases hg

theorem orderly_reach {poolSize : Nat} (h : Reach pt poolSize s) : Orderly s.tr :=
  ⟨(sent_reach h).2, fun _ _ _ _ _ h1 h2 => sends_inj (onces_reach h).nodup h1 h2⟩

end Verif.Shared
