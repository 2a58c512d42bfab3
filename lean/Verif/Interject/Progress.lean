import Verif.Interject.Trace
/-
Calls return when no worker is halted; what happens to them otherwise.
-/
namespace Verif.Interject

/-! ### A measure -/

/-- What a call has to do at most. -/
def Call.weight (m : Nat) (c : Call) : Nat :=
  match c.pc with
  | .start => 7 * m + 3
  | .next rest its => 7 * rest.length + 2 * its.length + 2
  | .sending _ _ rest its => 7 * rest.length + 2 * its.length + 8
  | .waiting _ rest => 7 * rest.length + 3
  | .collect its => 2 * its.length + 1
  | .done => 0

/-- What a worker has to do at most. -/
def Wk.weight (k : Wk) : Nat := (if k.ready then 0 else 1) + 2 * k.chan.toList.length + k.pend.length

/-- What is left to do. -/
def St.weight (s : St) : Nat := (s.calls.map (Call.weight s.map.length)).sum + (s.wks.map Wk.weight).sum

theorem sum_set {α : Type} (f : α → Nat) (l : List α) (i : Nat) (x y : α) (h : l[i]? = some x) : ((l.set i y).map f).sum + f x = (l.map f).sum + f y := by
  induction l generalizing i with
  | nil => cases h
  | cons a l ih =>
    cases i with
    | zero =>
      simp only [List.getElem?_cons_zero, Option.some.injEq] at h
      subst h
      simp only [List.set_cons_zero, List.map_cons, List.sum_cons]
      omega
    | succ i =>
      simp only [List.getElem?_cons_succ] at h
      simp only [List.set_cons_succ, List.map_cons, List.sum_cons]
      have := ih i h
      omega

theorem weight_after (m : Nat) (sync : Bool) (t : Nat) (rest its : List Nat) :
    Call.weight m ⟨sync, after sync t rest its⟩ ≤ 7 * rest.length + 2 * its.length + 4 := by
  cases sync <;> simp [Call.weight, after] <;> omega

theorem weight_step {s s' : St} {l : Label} (hl : inner l = true) (hh : ∀ k ∈ s.wks, k.halted = false) (h : Tr s l s') : s'.weight < s.weight := by
  have key : ∀ (i : Nat) (c c' : Call), s.calls[i]? = some c → c'.weight s.map.length < c.weight s.map.length →
      ((s.calls.set i c').map (Call.weight s.map.length)).sum < (s.calls.map (Call.weight s.map.length)).sum := by
    intro i c c' hc hlt
    have := sum_set (Call.weight s.map.length) s.calls i c c' hc
    omega
  have keyw : ∀ (w : Nat) (k k' : Wk), s.wks[w]? = some k → k'.weight < k.weight → ((s.wks.set w k').map Wk.weight).sum < (s.wks.map Wk.weight).sum := by
    intro w k k' hk hlt
    have := sum_set Wk.weight s.wks w k k' hk
    omega
  cases h with
  | call | one | assign | revoke | revokeNone | halt | receive | stop | drop => cases hl
  | @snap i ps sync hc hm hp =>
    have hlen : ps.length = s.map.length := by rw [hp.length_eq, List.length_map]
    have := key i _ ⟨sync, .next ps []⟩ hc (by simp [Call.weight, hlen])
    simp only [St.weight]; omega
  | @beginSend i sync p rest its w k hc =>
    have := key i _ ⟨sync, .sending w s.tags.length rest its⟩ hc (by simp [Call.weight]; omega)
    simp only [St.weight]; omega
  | @beginErr i sync p rest its hc hm =>
    have h1 := weight_after s.map.length sync s.tags.length rest its
    have := key i _ ⟨sync, after sync s.tags.length rest its⟩ hc (by simp only [Call.weight, List.length_cons] at h1 ⊢; omega)
    simp only [St.weight]; omega
  | @send i sync w t rest its k hc hk hn =>
    have h1 := weight_after s.map.length sync t rest its
    have h2 := sum_set (Call.weight s.map.length) s.calls i _ ⟨sync, after sync t rest its⟩ hc
    have h3 := sum_set Wk.weight s.wks w k { k with chan := some t } hk
    have h4 : Wk.weight { k with chan := some t } = k.weight + 2 := by simp only [Wk.weight, hn, Option.toList]; simp; omega
    have h5 : Call.weight s.map.length ⟨sync, .sending w t rest its⟩ = 7 * rest.length + 2 * its.length + 8 := rfl
    simp only [St.weight]
    omega
  | @recvSync i sync t rest hc =>
    have := key i _ ⟨sync, .next rest []⟩ hc (by simp [Call.weight])
    simp only [St.weight]; omega
  | @recv i sync t its hc =>
    have := key i _ ⟨sync, .collect its⟩ hc (by simp [Call.weight])
    simp only [St.weight]; omega
  | @finSync i its hc =>
    have := key i _ ⟨true, .done⟩ hc (by simp [Call.weight])
    simp only [St.weight]; omega
  | @finAll i its hc =>
    have := key i _ ⟨false, .collect its⟩ hc (by simp [Call.weight])
    simp only [St.weight]; omega
  | @fin i sync hc =>
    have := key i _ ⟨sync, .done⟩ hc (by simp [Call.weight])
    simp only [St.weight]; omega
  | @ready w k hk hr =>
    have := keyw w k { k with ready := true } hk (by simp [Wk.weight, hr])
    simp only [St.weight]; omega
  | @takeLost w k t hk hc hr hs hha =>
    rw [hh k (List.mem_of_getElem? hk)] at hha; cases hha
  | @take w k t hk hc hr hs hha =>
    have := keyw w k { k with chan := none, pend := k.pend ++ [t] } hk (by simp [Wk.weight, hc]; omega)
    simp only [St.weight]; omega
  | @run w k t r x hk hp hx =>
    have := keyw w k { k with pend := r } hk (by simp [Wk.weight, hp])
    simp only [St.weight]; omega

theorem calm_step {s s' : St} {l : Label} (hl : inner l = true) (hh : ∀ k ∈ s.wks, k.halted = false) (h : Tr s l s') : ∀ k ∈ s'.wks, k.halted = false := by
  have keyw : ∀ (w : Nat) (k k' : Wk), s.wks[w]? = some k → k'.halted = k.halted → ∀ d ∈ s.wks.set w k', d.halted = false := by
    intro w k k' hk he d hd
    rcases List.mem_or_eq_of_mem_set hd with h | h
    · exact hh d h
    · subst h; rw [he]; exact hh k (List.mem_of_getElem? hk)
  cases h with
  | call | one | assign | revoke | revokeNone | halt | receive | stop | drop => cases hl
  | send hc hk => exact keyw _ _ _ hk rfl
  | ready hk => exact keyw _ _ _ hk rfl
  | takeLost hk => exact keyw _ _ _ hk rfl
  | take hk => exact keyw _ _ _ hk rfl
  | run hk => exact keyw _ _ _ hk rfl
  | _ => exact hh

theorem length_step {s s' : St} {l : Label} (hl : inner l = true) (h : Tr s l s') : s'.calls.length = s.calls.length := by
  cases h with
  | call | one | assign | revoke | revokeNone | halt | receive | stop | drop => cases hl
  | ready | takeLost | take | run => rfl
  | _ => dsimp only; rw [List.length_set]

theorem step_isSome_call {s : St} {l : Label} (h : (stepCall s l).isSome = true) : (step s l).isSome = true := by
  unfold step
  split
  · rfl
  · rename_i hn; rw [hn] at h; cases h

/-- When nothing can be done without the outside, every call has returned. -/
theorem quiet_done {s : St} (hr : Reach s) (hh : ∀ k ∈ s.wks, k.halted = false) (hq : ∀ l, inner l = true → step s l = none) :
    ∀ (i : Nat) (c : Call), s.calls[i]? = some c → c.pc = .done := by
  have I := inv_reach hr
  have hlost : s.lost = [] := by
    by_contra hne
    obtain ⟨k, h1, h2⟩ := I.lost hne
    rw [hh k h1] at h2; cases h2
  have hpend : ∀ (w : Nat) (k : Wk), s.wks[w]? = some k → k.pend = [] := by
    intro w k hk
    cases hp : k.pend with
    | nil => rfl
    | cons t r =>
      exfalso
      obtain ⟨x, h1, _⟩ := I.held w k t hk (by simp [Wk.holds, hp])
      have := hq (.run w) rfl
      simp [step, stepCall, stepWorker, hk, hp, h1] at this
  have hchan : ∀ (w : Nat) (k : Wk), s.wks[w]? = some k → k.chan = none := by
    intro w k hk
    cases hp : k.chan with
    | none => rfl
    | some t =>
      exfalso
      have hm := List.mem_of_getElem? hk
      have h1 := I.ready k hm (by rw [hp]; simp)
      have h2 := hh k hm
      have h3 : k.stopped = false := by
        cases hst : k.stopped with
        | false => rfl
        | true => have := I.stopped k hm hst; rw [h2] at this; cases this
      have := hq (.take w) rfl
      simp [step, stepCall, stepWorker, hk, hp, h1, h2, h3] at this
  have hsend : ∀ (i : Nat) (c : Call), s.calls[i]? = some c → c.holds = [] := by
    intro i c hc
    obtain ⟨sync, pc⟩ := c
    cases pc with
    | sending w t rest its =>
      exfalso
      obtain ⟨k, x, h1, _⟩ := I.sending i sync w t rest its hc
      have := hq (.send i) rfl
      simp [step, stepCall, hc, h1, hchan w k h1] at this
    | _ => rfl
  have hmux : s.mux = none := by
    cases hm : s.mux with
    | none => rfl
    | some i =>
      exfalso
      have hl := I.muxLt i hm
      exact (I.mux i _ (List.getElem?_eq_getElem hl)).1 hm (hsend i _ (List.getElem?_eq_getElem hl))
  have hopen : ∀ t, s.isOpen t = false := by
    intro t
    cases ho : s.isOpen t with
    | false => rfl
    | true =>
      exfalso
      have h1 := I.loc t
      rw [ho] at h1
      have hmem := count_one_mem (by simpa using h1)
      simp only [St.locs, List.mem_append, List.mem_flatMap, hlost] at hmem
      rcases hmem with ⟨k, hk, ht⟩ | ⟨c, hc, ht⟩ | ht
      · obtain ⟨w, hw⟩ := List.mem_iff_getElem?.1 hk
        simp [Wk.holds, hpend w k hw, hchan w k hw] at ht
      · obtain ⟨i, hi⟩ := List.mem_iff_getElem?.1 hc
        rw [hsend i c hi] at ht; cases ht
      · cases ht
  have hans : ∀ (i : Nat) (c : Call) (t : Nat), s.calls[i]? = some c → t ∈ c.expects → s.answered t = true := by
    intro i c t hc ht
    obtain ⟨x, h1, _⟩ := I.own i c t hc ht
    have := hopen t
    unfold St.isOpen at this
    unfold St.answered
    rw [h1] at this ⊢
    simpa using this
  intro i c hc
  obtain ⟨sync, pc⟩ := c
  cases pc with
  | start =>
    exfalso
    have := hq (.snap i (s.map.map (·.1))) rfl
    simp [step, stepCall, hc, hmux] at this
  | next rest its =>
    exfalso
    cases rest with
    | nil =>
      have := hq (.fin i) rfl
      cases sync <;> simp [step, stepCall, hc] at this
    | cons p rest =>
      have := hq (.begin i) rfl
      cases hw : s.worker p with
      | none => simp [step, stepCall, hc, hmux, hw] at this
      | some w =>
        obtain ⟨k, h1, _⟩ := I.map p w (worker_mem hw)
        cases hrd : k.ready <;> simp [step, stepCall, hc, hmux, hw, h1, hrd] at this
  | sending w t rest its =>
    have := hsend i _ hc
    simp [Call.holds] at this
  | waiting t rest =>
    exfalso
    have := hq (.recv i) rfl
    simp [step, stepCall, hc, hans i _ t hc (by simp [Call.expects])] at this
  | collect its =>
    exfalso
    cases its with
    | nil =>
      have := hq (.fin i) rfl
      cases sync <;> simp [step, stepCall, hc] at this
    | cons t its =>
      have := hq (.recv i) rfl
      simp [step, stepCall, hc, hans i _ t hc (by simp [Call.expects])] at this
  | done => rfl

theorem calm_run {s s' : St} {ls : List Label} (hls : ∀ l ∈ ls, inner l = true) (hh : ∀ k ∈ s.wks, k.halted = false) (h : run s ls = some s') :
    (∀ k ∈ s'.wks, k.halted = false) ∧ ls.length + s'.weight ≤ s.weight ∧ s'.calls.length = s.calls.length := by
  induction ls generalizing s with
  | nil => cases h; exact ⟨hh, by simp, rfl⟩
  | cons l ls ih =>
    simp only [run, Option.bind_eq_some_iff] at h
    obtain ⟨t, h1, h2⟩ := h
    have hl := hls l (by simp)
    have g := tr_of_step h1
    obtain ⟨a, b, c⟩ := ih (fun l hl => hls l (by simp [hl])) (calm_step hl hh g) h2
    have := weight_step hl hh g
    refine ⟨a, ?_, by rw [c, length_step hl g]⟩
    simp only [List.length_cons]
    omega

theorem exists_quiet (n : Nat) : ∀ s : St, s.weight ≤ n → (∀ k ∈ s.wks, k.halted = false) →
    ∃ ls s', (∀ l ∈ ls, inner l = true) ∧ run s ls = some s' ∧ ∀ l, inner l = true → step s' l = none := by
  induction n with
  | zero =>
    intro s hw hh
    refine ⟨[], s, by simp, rfl, ?_⟩
    intro l hl
    cases h : step s l with
    | none => rfl
    | some s' => have := weight_step hl hh (tr_of_step h); omega
  | succ n ih =>
    intro s hw hh
    by_cases hq : ∀ l, inner l = true → step s l = none
    · exact ⟨[], s, by simp, rfl, hq⟩
    · push Not at hq
      obtain ⟨l, hl, hne⟩ := hq
      obtain ⟨t, ht⟩ := Option.ne_none_iff_exists'.1 hne
      have := weight_step hl hh (tr_of_step ht)
      obtain ⟨ls, s', h1, h2, h3⟩ := ih t (by omega) (calm_step hl hh (tr_of_step ht))
      refine ⟨l :: ls, s', ?_, ?_, h3⟩
      · intro m hm
        rcases List.mem_cons.1 hm with h | h
        · rw [h]; exact hl
        · exact h1 m h
      · simp only [run, ht, Option.bind_some]; exact h2

/-! ### Calls that never return -/

/-- Worker `w` has left its loop with its channel full, and call `i` is sending to it. -/
def Stuck (s : St) (i w : Nat) : Prop :=
  s.mux = some i ∧ (∃ (sync : Bool) (t : Nat) (rest its : List Nat), s.calls[i]? = some ⟨sync, .sending w t rest its⟩) ∧
  ∃ k : Wk, s.wks[w]? = some k ∧ k.stopped = true ∧ k.chan ≠ none

theorem stuck_step {s s' : St} {l : Label} {i w : Nat} (I : Inv s) (S : Stuck s i w) (h : Tr s l s') :
    Stuck s' i w ∧ ∃ evs, s'.trace = s.trace ++ evs ∧ Ev.polled ∉ evs ∧ ∀ p, Ev.revoked p ∉ evs ∧ Ev.assigned p ∉ evs := by
  obtain ⟨hm, ⟨sync, t, rest, its, hc⟩, k, hk, hs, hn⟩ := S
  have keyc : ∀ (j : Nat) (d d' : Call), s.calls[j]? = some d → (∀ w t r e, d.pc ≠ .sending w t r e) → j ≠ i := by
    intro j d d' hj hd e
    subst e
    rw [hc] at hj; cases hj
    exact hd _ _ _ _ rfl
  have keyw : ∀ (v : Nat) (d d' : Wk), s.wks[v]? = some d → (d.stopped = true → d.chan ≠ none → d'.stopped = true ∧ d'.chan ≠ none) →
      ∃ k : Wk, (s.wks.set v d')[w]? = some k ∧ k.stopped = true ∧ k.chan ≠ none := by
    intro v d d' hv hd
    by_cases e : w = v
    · subst e
      rw [hk] at hv; cases hv
      exact ⟨d', get_set_eq hk, hd hs hn⟩
    · exact ⟨k, by rw [get_set_ne e]; exact hk, hs, hn⟩
  have hcs : ∀ (j : Nat) (d' : Call), j ≠ i → (s.calls.set j d')[i]? = some ⟨sync, .sending w t rest its⟩ := by
    intro j d' hj
    rw [get_set_ne (fun e => hj e.symm)]; exact hc
  cases h with
  | call => exact ⟨⟨hm, ⟨sync, t, rest, its, get_app_lt hc⟩, k, hk, hs, hn⟩, [], by simp, by simp, by simp⟩
  | one => exact ⟨⟨hm, ⟨sync, t, rest, its, get_app_lt hc⟩, k, hk, hs, hn⟩, _, rfl, by simp, by simp⟩
  | snap h1 h2 => rw [hm] at h2; cases h2
  | beginSend h1 h2 => rw [hm] at h2; cases h2
  | beginErr h1 h2 => rw [hm] at h2; cases h2
  | assign h2 => rw [hm] at h2; cases h2
  | revoke h2 => rw [hm] at h2; cases h2
  | revokeNone h2 => rw [hm] at h2; cases h2
  | receive h2 => rw [hm] at h2; cases h2
  | @send j sy v u r e kk h1 h2 h3 =>
    exfalso
    have := (I.mux j _ h1).2 (by simp [Call.holds])
    rw [hm] at this
    cases this
    rw [hc] at h1; cases h1
    rw [hk] at h2; cases h2
    exact hn h3
  | recvSync h1 => exact ⟨⟨hm, ⟨sync, t, rest, its, hcs _ _ (keyc _ _ ⟨sync, .done⟩ h1 (by simp))⟩, k, hk, hs, hn⟩, [], by simp, by simp, by simp⟩
  | recv h1 => exact ⟨⟨hm, ⟨sync, t, rest, its, hcs _ _ (keyc _ _ ⟨sync, .done⟩ h1 (by simp))⟩, k, hk, hs, hn⟩, [], by simp, by simp, by simp⟩
  | finSync h1 => exact ⟨⟨hm, ⟨sync, t, rest, its, hcs _ _ (keyc _ _ ⟨sync, .done⟩ h1 (by simp))⟩, k, hk, hs, hn⟩, _, rfl, by simp, by simp⟩
  | finAll h1 => exact ⟨⟨hm, ⟨sync, t, rest, its, hcs _ _ (keyc _ _ ⟨sync, .done⟩ h1 (by simp))⟩, k, hk, hs, hn⟩, [], by simp, by simp, by simp⟩
  | fin h1 => exact ⟨⟨hm, ⟨sync, t, rest, its, hcs _ _ (keyc _ _ ⟨sync, .done⟩ h1 (by simp))⟩, k, hk, hs, hn⟩, _, rfl, by simp, by simp⟩
  | halt =>
    refine ⟨⟨hm, ⟨sync, t, rest, its, hc⟩, { k with halted := true }, ?_, hs, hn⟩, [], by simp, by simp, by simp⟩
    dsimp only
    rw [List.getElem?_map, hk]; rfl
  | ready h1 => exact ⟨⟨hm, ⟨sync, t, rest, its, hc⟩, keyw _ _ _ h1 (fun a b => ⟨a, b⟩)⟩, [], by simp, by simp, by simp⟩
  | takeLost h1 h2 h3 h4 => exact ⟨⟨hm, ⟨sync, t, rest, its, hc⟩, keyw _ _ _ h1 (fun a b => by rw [h4] at a; cases a)⟩, [], by simp, by simp, by simp⟩
  | take h1 h2 h3 h4 => exact ⟨⟨hm, ⟨sync, t, rest, its, hc⟩, keyw _ _ _ h1 (fun a b => by rw [h4] at a; cases a)⟩, [], by simp, by simp, by simp⟩
  | stop h1 => exact ⟨⟨hm, ⟨sync, t, rest, its, hc⟩, keyw _ _ _ h1 (fun a b => ⟨rfl, b⟩)⟩, [], by simp, by simp, by simp⟩
  | run h1 => exact ⟨⟨hm, ⟨sync, t, rest, its, hc⟩, keyw _ _ _ h1 (fun a b => ⟨a, b⟩)⟩, _, rfl, by simp, by simp⟩
  | drop h1 => exact ⟨⟨hm, ⟨sync, t, rest, its, hc⟩, keyw _ _ _ h1 (fun a b => ⟨a, b⟩)⟩, [], by simp, by simp, by simp⟩

theorem stuck_run {s s' : St} {ls : List Label} {i w : Nat} (hr : Reach s) (S : Stuck s i w) (h : run s ls = some s') :
    Stuck s' i w ∧ ∃ evs, s'.trace = s.trace ++ evs ∧ Ev.polled ∉ evs ∧ ∀ p, Ev.revoked p ∉ evs ∧ Ev.assigned p ∉ evs := by
  induction ls generalizing s with
  | nil => cases h; exact ⟨S, [], by simp, by simp, by simp⟩
  | cons l ls ih =>
    simp only [run, Option.bind_eq_some_iff] at h
    obtain ⟨t, h1, h2⟩ := h
    obtain ⟨S1, e1, g1, g2, g3⟩ := stuck_step (inv_reach hr) S (tr_of_step h1)
    obtain ⟨S2, e2, k1, k2, k3⟩ := ih (.step hr h1) S1 h2
    refine ⟨S2, e1 ++ e2, by rw [k1, g1, List.append_assoc], ?_, ?_⟩
    · simp [g2, k2]
    · intro p
      simp [g3 p, k3 p]

/-- The interjection `t` was dropped and call `i` waits for it. -/
def Orphan (s : St) (i t : Nat) : Prop := t ∈ s.lost ∧ ∃ c : Call, s.calls[i]? = some c ∧ t ∈ c.expects

theorem lost_open {s : St} (I : Inv s) {t : Nat} (h : t ∈ s.lost) : s.isOpen t = true := by
  have h1 := I.loc t
  have h2 : 0 < s.locs.count t := List.count_pos_iff.2 (by simp [St.locs, h])
  split at h1
  · assumption
  · omega

theorem orphan_step {s s' : St} {l : Label} {i t : Nat} (I : Inv s) (O : Orphan s i t) (h : Tr s l s') : Orphan s' i t := by
  obtain ⟨hl, c, hc, he⟩ := O
  have hopen := lost_open I hl
  have hna : s.answered t = false := by
    unfold St.answered
    unfold St.isOpen at hopen
    split at hopen
    · rename_i x hx; rw [hx]; simpa using hopen
    · cases hopen
  have key : ∀ (j : Nat) (d d' : Call), s.calls[j]? = some d → (t ∈ d.expects → t ∈ d'.expects) →
      ∃ c : Call, (s.calls.set j d')[i]? = some c ∧ t ∈ c.expects := by
    intro j d d' hj hd
    by_cases e : i = j
    · subst e
      rw [hc] at hj; cases hj
      exact ⟨d', get_set_eq hc, hd he⟩
    · exact ⟨c, by rw [get_set_ne e]; exact hc, he⟩
  cases h with
  | call | one => exact ⟨hl, c, get_app_lt hc, he⟩
  | snap h1 => exact ⟨hl, key _ _ _ h1 (by intro h; simp [Call.expects] at h)⟩
  | beginSend h1 => exact ⟨hl, key _ _ _ h1 (by intro h; simp only [Call.expects] at h ⊢; exact List.mem_append_left _ h)⟩
  | beginErr h1 => exact ⟨hl, key _ _ _ h1 (by intro h; rw [expects_after]; simp only [Call.expects] at h; exact List.mem_append_left _ h)⟩
  | send h1 => exact ⟨hl, key _ _ _ h1 (by intro h; rw [expects_after]; exact h)⟩
  | recvSync h1 h2 =>
    refine ⟨hl, key _ _ _ h1 ?_⟩
    intro h
    simp only [Call.expects, List.mem_singleton] at h
    subst h
    rw [hna] at h2; cases h2
  | recv h1 h2 =>
    refine ⟨hl, key _ _ _ h1 ?_⟩
    intro h
    simp only [Call.expects, List.mem_cons] at h ⊢
    rcases h with h | h
    · subst h
      rw [hna] at h2; cases h2
    · exact h
  | finSync h1 => exact ⟨hl, key _ _ _ h1 (by intro h; simp [Call.expects] at h)⟩
  | finAll h1 => exact ⟨hl, key _ _ _ h1 (by intro h; exact h)⟩
  | fin h1 => exact ⟨hl, key _ _ _ h1 (by intro h; simp [Call.expects] at h)⟩
  | takeLost | drop => exact ⟨List.mem_append_left _ hl, c, hc, he⟩
  | _ => exact ⟨hl, c, hc, he⟩

theorem orphan_run {s s' : St} {ls : List Label} {i t : Nat} (hr : Reach s) (O : Orphan s i t) (h : run s ls = some s') : Ev.returned i ∉ s'.trace := by
  induction ls generalizing s with
  | nil =>
    cases h
    intro hret
    obtain ⟨c, h1, h2⟩ := (tinv_reach hr).ret i hret
    obtain ⟨_, d, h3, h4⟩ := O
    rw [h1] at h3; cases h3
    simp [Call.expects, h2] at h4
  | cons l ls ih =>
    simp only [run, Option.bind_eq_some_iff] at h
    obtain ⟨u, h1, h2⟩ := h
    exact ih (.step hr h1) (orphan_step (inv_reach hr) O (tr_of_step h1)) h2

/-! ### What was answered when a call returned -/

theorem rest_done {s : St} (hr : Reach s) {i : Nat} {c : Call} (hc : s.calls[i]? = some c) (hn : c.pc ≠ .start) (he : c.expects = []) (hrest : c.rest = []) :
    ∃ ps, targets i s.trace = [ps] ∧ (outcomes i s.trace).Perm ps := by
  have I := inv_reach hr
  have T := tinv_reach hr
  have h1 := T.rest i c hc hn
  rw [hrest, List.append_nil] at h1
  refine ⟨_, h1, ?_⟩
  rw [List.perm_iff_count]
  intro p
  rw [T.out i p, List.count_eq_countP, List.countP_map, St.mine, List.countP_filter]
  apply List.countP_congr
  intro x hx
  have := open_none I hc he x
  simp only [St.mine, List.mem_filter, decide_eq_true_eq] at this
  simp only [Function.comp, decide_eq_true_eq, beq_iff_eq, Bool.and_eq_true]
  constructor
  · rintro ⟨a, b, c⟩; exact ⟨b, a⟩
  · rintro ⟨a, b⟩; exact ⟨b, a, this ⟨hx, b⟩⟩

/-- The new events of a step. -/
theorem trace_step {s s' : St} {l : Label} (h : Tr s l s') : ∃ evs, s'.trace = s.trace ++ evs ∧ evs.length ≤ 1 := by
  cases h <;> first | exact ⟨_, rfl, by simp⟩ | exact ⟨[], by simp, by simp⟩

/-- Calls that have returned have no further events. -/
theorem quiet_after {s s' : St} {l : Label} (hr : Reach s) (h : Tr s l s') {i : Nat} (hret : Ev.returned i ∈ s.trace) {evs : List Ev}
    (htr : s'.trace = s.trace ++ evs) : outcomes i evs = [] ∧ targets i evs = [] ∧ Ev.returned i ∉ evs := by
  have I := inv_reach hr
  have T := tinv_reach hr
  obtain ⟨c, hc, hd⟩ := T.ret i hret
  have ne : ∀ (j : Nat) (d : Call), s.calls[j]? = some d → d.pc ≠ .done → j ≠ i := by
    intro j d hj hdd e
    subst e
    rw [hc] at hj; cases hj
    exact hdd hd
  have hlt := get_lt hc
  cases h with
  | one =>
    obtain rfl := List.append_cancel_left htr
    refine ⟨by simp [outcomes], ?_, by simp⟩
    have : s.calls.length ≠ i := by omega
    simp [targets, this]
  | snap h1 => obtain rfl := List.append_cancel_left htr; exact ⟨by simp [outcomes], by simp [targets, ne _ _ h1 (by simp)], by simp⟩
  | beginErr h1 => obtain rfl := List.append_cancel_left htr; exact ⟨by simp [outcomes, ne _ _ h1 (by simp)], by simp [targets], by simp⟩
  | send h1 => obtain rfl := List.append_cancel_left htr; exact ⟨by simp [outcomes], by simp [targets], by simp⟩
  | finSync h1 => obtain rfl := List.append_cancel_left htr; exact ⟨by simp [outcomes], by simp [targets], by simp [Ne.symm (ne _ _ h1 (by simp))]⟩
  | fin h1 => obtain rfl := List.append_cancel_left htr; exact ⟨by simp [outcomes], by simp [targets], by simp [Ne.symm (ne _ _ h1 (by simp))]⟩
  | assign | revoke | receive => obtain rfl := List.append_cancel_left htr; exact ⟨by simp [outcomes], by simp [targets], by simp⟩
  | @run w k t r x hk hp hx =>
    obtain rfl := List.append_cancel_left htr
    refine ⟨?_, by simp [targets], by simp⟩
    have ho : x.res = .opened := by
      have h1 := I.loc t
      have h2 : 0 < s.locs.count t := List.count_pos_iff.2 (by
        simp only [St.locs, List.mem_append, List.mem_flatMap]
        exact .inl ⟨k, List.mem_of_getElem? hk, by simp [Wk.holds, hp]⟩)
      split at h1
      · rename_i h
        obtain ⟨y, g1, g2⟩ := isOpen_iff.1 h
        rw [hx] at g1; cases g1
        exact g2
      · omega
    obtain ⟨d, h1, h2⟩ := I.opened t x hx ho
    have : x.call ≠ i := by
      intro e
      rw [e, hc] at h1; cases h1
      simp [Call.expects, hd] at h2
    simp [outcomes, this]
  | _ =>
    have : evs = [] := List.append_cancel_left ((List.append_nil _).trans htr).symm
    subst this
    exact ⟨rfl, rfl, by simp⟩

theorem split_snoc {α : Type} {l evs a b : List α} {x : α} (h : l ++ evs = a ++ x :: b) (hlen : evs.length ≤ 1) :
    (∃ b', l = a ++ x :: b' ∧ b = b' ++ evs) ∨ (evs = [x] ∧ l = a ∧ b = []) := by
  match evs, hlen with
  | [], _ => rw [List.append_nil] at h; exact .inl ⟨b, h, by simp⟩
  | [e], _ =>
    rcases List.eq_nil_or_concat b with hb | ⟨b', z, hb⟩
    · subst hb
      obtain ⟨h1, h2⟩ := List.append_inj' h (by simp)
      exact .inr ⟨h2, h1, rfl⟩
    · rw [List.concat_eq_append] at hb
      subst hb
      rw [← List.cons_append, ← List.append_assoc] at h
      obtain ⟨h1, h2⟩ := List.append_inj' h (by simp)
      exact .inl ⟨b', h1, by rw [h2]⟩

theorem returned_all {s : St} (hr : Reach s) : ∀ (i : Nat) (a b : List Ev), s.trace = a ++ Ev.returned i :: b →
    (∃ ps, targets i a = [ps] ∧ (outcomes i a).Perm ps) ∧ outcomes i b = [] ∧ targets i b = [] ∧ Ev.returned i ∉ b := by
  induction hr with
  | init => intro i a b h; simp [St.init] at h
  | @step s s' l hr h ih =>
    intro i a b hab
    have g := tr_of_step h
    obtain ⟨evs, h1, h2⟩ := trace_step g
    rw [h1] at hab
    rcases split_snoc hab h2 with ⟨b', g1, g2⟩ | ⟨g1, g2, g3⟩
    · obtain ⟨k1, k2, k3, k4⟩ := ih i a b' g1
      obtain ⟨m1, m2, m3⟩ := quiet_after hr g (i := i) (by rw [g1]; simp) h1
      rw [g2, outcomes_append, targets_append, k2, k3, m1, m2]
      exact ⟨k1, rfl, rfl, by simp [k4, m3]⟩
    · subst g2 g3
      refine ⟨?_, rfl, rfl, by simp⟩
      rw [g1] at h1
      cases g with
      | finSync hc =>
        obtain ⟨rfl⟩ : _ = i := by simpa using List.append_cancel_left h1
        exact rest_done hr hc (by simp) (by simp [Call.expects]) rfl
      | fin hc =>
        obtain ⟨rfl⟩ : _ = i := by simpa using List.append_cancel_left h1
        exact rest_done hr hc (by simp) (by simp [Call.expects]) rfl
      | _ => simp at h1

theorem found_owned {s : St} (hr : Reach s) : ∀ (i : Nat) (ps : List Nat) (a b : List Ev), s.trace = a ++ Ev.found i ps :: b → ps.Perm (owned a) ∧ (owned a).Nodup := by
  induction hr with
  | init => intro i ps a b h; simp [St.init] at h
  | @step s s' l hr h ih =>
    intro i ps a b hab
    have g := tr_of_step h
    have T := tinv_reach hr
    obtain ⟨evs, h1, h2⟩ := trace_step g
    rw [h1] at hab
    rcases split_snoc hab h2 with ⟨b', g1, g2⟩ | ⟨g1, g2, g3⟩
    · exact ih i ps a b' g1
    · subst g2 g3
      rw [g1] at h1
      cases g with
      | snap hc hm hp =>
        obtain ⟨rfl, rfl⟩ : _ = i ∧ _ = ps := by simpa using List.append_cancel_left h1
        rw [T.owned]
        exact ⟨hp, T.nodup⟩
      | _ => simp at h1

/-- A sequential call has at most one channel without an answer. -/
theorem sync_one {s : St} (hr : Reach s) {i : Nat} {c : Call} (hc : s.calls[i]? = some c) (hs : c.sync = true) :
    s.tags.countP (fun x => x.call = i ∧ x.res = .opened) ≤ 1 := by
  have I := inv_reach hr
  have T := tinv_reach hr
  have key : ∀ (u v : Nat) (x y : Tag), s.tags[u]? = some x → s.tags[v]? = some y → x.call = i → y.call = i → x.res = .opened → y.res = .opened → u = v := by
    intro u v x y hu hv hxc hyc hxo hyo
    obtain ⟨d, h1, h2⟩ := I.opened u x hu hxo
    obtain ⟨e, h3, h4⟩ := I.opened v y hv hyo
    rw [hxc, hc] at h1; cases h1
    rw [hyc, hc] at h3; cases h3
    have a := T.last i c hc hs u h2 v y hv hyc
    have b := T.last i c hc hs v h4 u x hu hxc
    omega
  clear T I hc hr
  generalize s.tags = l at key
  induction l with
  | nil => simp
  | cons a l ih =>
    rw [List.countP_cons]
    by_cases ha : a.call = i ∧ a.res = .opened
    · have : l.countP (fun x => x.call = i ∧ x.res = .opened) = 0 := by
        rw [List.countP_eq_zero]
        intro y hy hyy
        simp only [decide_eq_true_eq] at hyy
        obtain ⟨v, hv⟩ := List.mem_iff_getElem?.1 hy
        have := key 0 (v + 1) a y rfl (by simpa using hv) ha.1 hyy.1 ha.2 hyy.2
        omega
      rw [this]
      split <;> omega
    · have hz : (if decide (a.call = i ∧ a.res = .opened) = true then 1 else 0) = 0 := by simp only [decide_eq_true_eq]; rw [if_neg ha]
      rw [hz]
      exact ih (fun u v x y hu hv => fun p q r t => by
        have := key (u + 1) (v + 1) x y (by simpa using hu) (by simpa using hv) p q r t
        omega)

theorem countP_sent (l : List Tag) (i : Nat) : l.countP (fun x => x.call = i ∧ x.res ≠ .err) =
    l.countP (fun x => x.call = i ∧ x.res = .closed) + l.countP (fun x => x.call = i ∧ x.res = .opened) := by
  induction l with
  | nil => rfl
  | cons a l ih =>
    simp only [List.countP_cons, ih]
    obtain ⟨c, p, r⟩ := a
    by_cases h : c = i <;> cases r <;> simp [h] <;> omega

theorem sync_order {s : St} (hr : Reach s) {i : Nat} {c : Call} (hc : s.calls[i]? = some c) (hs : c.sync = true) {ps : List Nat} (hp : targets i s.trace = [ps]) :
    outcomes i s.trace <+: ps ∧ (sends i s.trace).length ≤ (runs i s.trace).length + 1 := by
  have I := inv_reach hr
  have T := tinv_reach hr
  constructor
  · by_cases hst : c.pc = .start
    · rw [(T.start i c hc hst).1] at hp; cases hp
    · have h1 := T.rest i c hc hst
      rw [hp] at h1
      obtain rfl : ps = _ := by simpa using h1
      rw [T.order i c hc hs]
      refine List.IsPrefix.trans ?_ (List.prefix_append _ _)
      apply List.IsPrefix.map
      rw [St.mine]
      cases he : c.expects with
      | nil =>
        have := open_none I hc he
        have hall : (s.mine i).filter (fun x => decide (x.res ≠ .opened)) = s.mine i := by
          rw [List.filter_eq_self]
          intro x hx
          simpa using this x hx
        rw [St.mine] at hall
        rw [hall]
        exact List.prefix_refl _
      | cons t r =>
        obtain ⟨x, hx, hxc⟩ := I.own i c t hc (by simp [he])
        have hdrop : (s.tags.drop (t + 1)).filter (fun y => decide (y.call = i)) = [] := by
          rw [List.filter_eq_nil_iff]
          intro y hy
          obtain ⟨u, hu⟩ := List.mem_iff_getElem?.1 hy
          rw [List.getElem?_drop] at hu
          simp only [decide_eq_true_eq]
          intro hyc
          have := T.last i c hc hs t (by simp [he]) _ y hu hyc
          omega
        have htake : ∀ y ∈ (s.tags.take t).filter (fun y => decide (y.call = i)), decide (y.res ≠ .opened) = true := by
          intro y hy
          simp only [List.mem_filter, decide_eq_true_eq] at hy
          obtain ⟨u, hu⟩ := List.mem_iff_getElem?.1 hy.1
          have hlt : u < t := by
            have := get_lt hu
            rw [List.length_take] at this
            omega
          rw [List.getElem?_take_of_lt hlt] at hu
          simp only [decide_eq_true_eq]
          intro ho
          obtain ⟨d, g1, g2⟩ := I.opened u y hu ho
          rw [hy.2, hc] at g1; cases g1
          have := T.last i c hc hs u g2 t x hx hxc
          omega
        rw [filter_split hx, hdrop, List.append_nil, List.filter_append, List.filter_eq_self.2 htake]
        rw [List.prefix_append_right_inj]
        by_cases ho : x.res = .opened <;> simp [hxc, ho]
  · have h1 := T.sent i c hc
    have h2 := T.ran i
    have h3 := sync_one hr hc hs
    have h4 := countP_sent s.tags i
    omega

end Verif.Interject
