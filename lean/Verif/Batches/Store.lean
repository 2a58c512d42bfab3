import Verif.Batches.Steps
/-
Proofs for C114: what was computed.
-/
namespace Verif.Batches
open Verif.Scheduler (Job sub upd)
open Verif.Exact
open Verif.Keyed (fk fk_append upd_self upd_other fk_cons fk_one split_unique pk pk_append pk_fst ofKey ofKey_append ofKey_flat filter_split_mem cut_at put)

set_option linter.unusedSectionVars false

variable {K σ X : Type} [DecidableEq K] {c : Cfg K σ X} {w w' : W K σ} {H H' : Nat → List (Job K)}

theorem outsAt_eq (p : Nat) (k : K) (o : Nat) : outsAt c p k o = effects c.app c.app.s0 (valsOf k ((c.src p).take o)) := by
  unfold outsAt; rw [handleAll_eq]

theorem stateAt_eq (p : Nat) (k : K) (o : Nat) : stateAt c p k o = (outsAt c p k o).foldl c.app.apply c.app.s0 := by
  unfold outsAt stateAt; rw [handleAll_eq]

/-- What is due for the record at an offset. -/
def dueAt (c : Cfg K σ X) (p o : Nat) : List Nat :=
  match (c.src p)[o]? with
  | some (k, x) => c.app.handle (stateAt c p k o) x
  | none => []

theorem valsOf_append (k : K) (a b : List (K × X)) : valsOf k (a ++ b) = valsOf k a ++ valsOf k b := by simp [valsOf]

theorem outsAt_succ {p o : Nat} {k' : K} {x : X} (h : (c.src p)[o]? = some (k', x)) (k : K) :
    outsAt c p k (o + 1) = outsAt c p k o ++ if k' = k then dueAt c p o else [] := by
  rw [outsAt_eq, outsAt_eq, List.take_add_one, h, valsOf_append, effects_append]
  by_cases hk : k' = k
  · subst hk
    rw [if_pos rfl]
    unfold dueAt
    rw [h]
    simp only [Option.toList, valsOf, List.filter_cons, decide_true, if_true, List.filter_nil, List.map_cons, List.map_nil, effects, List.append_nil]
    rw [stateAt_eq, outsAt_eq]
    rfl
  · rw [if_neg hk]
    simp [Option.toList, valsOf, hk, effects]

structure Inv (c : Cfg K σ X) (H : Nat → List (Job K)) (w : W K σ) : Prop extends Base c H w where
  due : ∀ p, ∀ e ∈ w.prod p, e.2 = dueAt c p (w.off e.1.id)
  st : ∀ p k, w.st p k = ((pk k (w.prod p)).flatMap Prod.snd).foldl c.app.apply (stateAt c p k (w.base p))
  vis : ∀ p k, ofKey k (w.vis p) = outsAt c p k (w.wm p)

theorem boot_inv {vis : Nat → List (K × Nat)} {wm : Nat → Nat} (h : ∀ p k, ofKey k (vis p) = outsAt c p k (wm p)) : Inv c (fun _ => []) (boot c vis wm) where
  toBase := boot_base c vis wm
  due := by intro p e h; simp [boot] at h
  st := by
    intro p k
    simp only [boot, pk, List.filter_nil, List.flatMap_nil, List.foldl_nil]
    rw [h, stateAt_eq]
  vis := by intro p k; simpa [boot, W.wm] using h p k

theorem outsAt_zero (p : Nat) (k : K) : outsAt c p k 0 = [] := by simp [outsAt_eq, valsOf, effects]

theorem prefix_trans_H (B : Base c H w) (p : Nat) (k : K) : fk k (H p) <+: fk k (w.ev p) := by
  rw [← B.hq p, fk_append]; exact List.prefix_append _ _

/-- The completed events of a key are the first ones. -/
theorem Base.pre_ev (hm : 1 ≤ c.maxSize) (hx : NoMix c) (B : Base c H w) (p : Nat) (k : K) : fk k ((w.prod p).map Prod.fst) <+: fk k (w.ev p) := by
  have h1 : fk k ((w.prod p).map Prod.fst) <+: sub p k (w.bat.called.filterMap w.evt) := by rw [← B.cA p k]; exact List.prefix_append _ _
  exact h1.trans ((B.pre hm hx p k).trans (prefix_trans_H B p k))

theorem Base.prod_mem (hm : 1 ≤ c.maxSize) (B : Base c H w) {p : Nat} {e : Job K × List Nat} (h : e ∈ w.prod p) : e.1 ∈ w.ev p ∧ e.1.id ∈ w.bat.called := by
  have h1 : e.1 ∈ fk e.1.key ((w.prod p).map Prod.fst) := List.mem_filter.mpr ⟨List.mem_map.mpr ⟨e, h, rfl⟩, by simp⟩
  have h2 : e.1 ∈ sub p e.1.key (w.bat.called.filterMap w.evt) := by rw [← B.cA p e.1.key]; exact List.mem_append_left _ h1
  obtain ⟨h3, h4⟩ := List.mem_filter.mp h2
  obtain ⟨b, hb, he⟩ := List.mem_filterMap.mp h3
  obtain ⟨q, y, hy, hyb, hye, hyq⟩ := B.called_H hm hb
  rw [he] at hye
  cases hye
  simp only [decide_eq_true_eq] at h4
  rw [h4.1] at hyq
  subst hyq
  exact ⟨B.H_ev hy, by rw [hyb]; exact hb⟩

/-- The records due for a stretch of events. -/
theorem Base.outs_seg (I : Base c H w) (p : Nat) (k : K) (i : Nat) : ∀ m, i + m ≤ (w.ev p).length →
    outsAt c p k (w.base p + (i + m)) = outsAt c p k (w.base p + i) ++ (fk k (((w.ev p).drop i).take m)).flatMap fun y => dueAt c p (w.off y.id) := by
  intro m
  induction m with
  | zero => intro _; simp [fk]
  | succ m ih =>
    intro hm
    have hy : (w.ev p)[i + m]? = some ((w.ev p)[i + m]'(by omega)) := List.getElem?_eq_getElem _
    obtain ⟨-, -, ho, -, x, hx⟩ := I.evs p (i + m) _ hy
    have e1 : w.base p + (i + (m + 1)) = w.base p + (i + m) + 1 := by omega
    rw [e1, outsAt_succ hx, ih (by omega), List.take_add_one, List.getElem?_drop, hy, fk_append, List.flatMap_append, List.append_assoc]
    congr 2
    by_cases hk : ((w.ev p)[i + m]'(by omega)).key = k
    · rw [if_pos hk]; simp [fk, hk, ho]
    · rw [if_neg hk]; simp [fk, hk]

/-- What was produced for completed events of a key is what is due for them. -/
theorem Inv.flat (I : Inv c H w) (p : Nat) (l : List (Job K × List Nat)) (hl : ∀ e ∈ l, e ∈ w.prod p) :
    l.flatMap Prod.snd = (l.map Prod.fst).flatMap fun y => dueAt c p (w.off y.id) := by
  rw [List.flatMap_map]
  exact flatMap_congr_mem fun e he => I.due p e (hl e he)

/-- The next event of its key finds the store as after the events before it. -/
theorem Inv.ready (I : Inv c H w) {p : Nat} {y : Job K} {rest : List (Job K)} (h : fk y.key ((w.prod p).map Prod.fst) ++ y :: rest = fk y.key (w.ev p)) :
    ∃ x, value c w y = some x ∧ w.st p y.key = stateAt c p y.key (w.off y.id) ∧ dueAt c p (w.off y.id) = c.app.handle (w.st p y.key) x ∧ y.caller = p := by
  have hy : y ∈ w.ev p := by
    have : y ∈ fk y.key (w.ev p) := by rw [← h]; simp
    exact (List.mem_filter.mp this).1
  obtain ⟨i, hi, hg⟩ := List.getElem_of_mem hy
  have hgi : (w.ev p)[i]? = some y := by rw [List.getElem?_eq_getElem hi, hg]
  obtain ⟨h1, h2, h3, -, x, hx⟩ := I.evs p i y hgi
  have hsplit : w.ev p = (w.ev p).take i ++ y :: (w.ev p).drop (i + 1) := by
    rw [← hg, ← List.drop_eq_getElem_cons hi, List.take_append_drop]
  have e2 : fk y.key (w.ev p) = fk y.key ((w.ev p).take i) ++ y :: fk y.key ((w.ev p).drop (i + 1)) := by
    conv => lhs; rw [hsplit]
    rw [fk_append]; simp [fk]
  have hn : (fk y.key (w.ev p)).Nodup := (I.nodup p).filter _
  have e3 : fk y.key ((w.prod p).map Prod.fst) = fk y.key ((w.ev p).take i) := by
    refine split_unique (b := rest) (b' := fk y.key ((w.ev p).drop (i + 1))) (y := y) (h.trans e2) ?_
    rw [h]; exact hn
  have e4 : w.st p y.key = stateAt c p y.key (w.off y.id) := by
    rw [I.st, stateAt_eq, stateAt_eq, h3]
    have := I.outs_seg p y.key 0 i (by omega)
    rw [Nat.zero_add, Nat.add_zero, List.drop_zero] at this
    rw [this, List.foldl_append, I.flat p (pk y.key (w.prod p)) (fun e he => (List.mem_filter.mp he).1), pk_fst, e3]
  refine ⟨x, ?_, e4, ?_, h1⟩
  · unfold value; rw [h1, h3, hx]; rfl
  · unfold dueAt; rw [e4, h3, hx]

/-- The application works on the next event of a key. -/
theorem inv_job (hm : 1 ≤ c.maxSize) (hx : NoMix c) (I : Inv c H w) {p : Nat} (h : step c w (.job p) = some w') : Inv c H w' := by
  have hB := base_job I.toBase h
  simp only [step] at h
  split at h
  · rename_i y rest ha hq
    split at h
    · rename_i x hv
      cases h
      have hcal := I.jb p y (by rw [hq]; simp)
      have hC := I.cA p y.key
      rw [hq, fk_cons, if_pos rfl] at hC
      have hp : fk y.key ((w.prod p).map Prod.fst) ++ ([y] ++ fk y.key rest) <+: fk y.key (w.ev p) := by
        rw [hC]; exact (I.pre hm hx p y.key).trans (prefix_trans_H I.toBase p y.key)
      obtain ⟨t, ht⟩ := hp
      obtain ⟨x', hx', hst, hdue, -⟩ := I.ready (p := p) (y := y) (rest := fk y.key rest ++ t) (by rw [← ht]; simp)
      rw [hv] at hx'
      cases hx'
      subst hcal
      refine ⟨hB, ?_, ?_, I.vis⟩
      · intro q e he
        have he' : e ∈ upd w.prod y.caller (w.prod y.caller ++ [(y, c.app.handle (w.st y.caller y.key) x)]) q := he
        by_cases hq : q = y.caller
        · subst hq
          rw [upd_self, List.mem_append, List.mem_singleton] at he'
          rcases he' with he' | rfl
          · exact I.due _ e he'
          · exact hdue.symm
        · rw [upd_other _ _ hq] at he'; exact I.due q e he'
      · intro q k
        have hv := I.st q k
        show put w.st y.caller y.key ((c.app.handle (w.st y.caller y.key) x).foldl c.app.apply (w.st y.caller y.key)) q k =
          ((pk k (upd w.prod y.caller (w.prod y.caller ++ [(y, c.app.handle (w.st y.caller y.key) x)]) q)).flatMap Prod.snd).foldl c.app.apply (stateAt c q k (w.base q))
        by_cases hq : q = y.caller
        · subst hq
          rw [upd_self, pk_append, List.flatMap_append, List.foldl_append, ← hv]
          by_cases hk : k = y.key
          · subst hk
            simp [put, pk]
          · have hk' : ¬ y.key = k := fun h => hk h.symm
            simp [put, pk, hk, hk']
        · rw [upd_other _ _ hq, ← hv]
          simp [put, hq]
    · cases h
  · cases h

theorem inv_arrive (hm : 1 ≤ c.maxSize) (I : Inv c H w) {p : Nat} (h : step c w (.arrive p) = some w') : Inv c H w' := by
  have hB := base_arrive hm I.toBase h
  simp only [step] at h
  split at h
  · cases h
    refine ⟨hB, ?_, I.st, I.vis⟩
    intro q e he
    show e.2 = dueAt c q (upd w.off w.next _ e.1.id)
    have := (I.ev_mem (I.prod_mem hm he).1).2.1
    rw [upd_other _ _ (by omega)]
    exact I.due q e he
  · cases h

theorem inv_handle (hm : 1 ≤ c.maxSize) (I : Inv c H w) {p : Nat} (h : step c w (.handle p) = some w') : ∃ H', Inv c H' w' := by
  obtain ⟨H', hB, h1, h2, h3, h4, h5, h6, h7⟩ := base_handle hm I.toBase h
  refine ⟨H', hB, ?_, ?_, ?_⟩
  · rw [h3, h2]; exact I.due
  · rw [h7, h3, h5]; exact I.st
  · intro p k; unfold W.wm; rw [h6, h5, h4]; exact I.vis p k

theorem inv_inner (I : Inv c H w) {l : Batcher.Label K} (h : step c w (.inner l) = some w') : Inv c H w' := by
  have hB := base_inner I.toBase h
  obtain ⟨b, -, -, ⟨-, rfl⟩ | ⟨i, y, -, -, -, rfl⟩⟩ := inner_cases h
  · exact ⟨hB, I.due, I.st, I.vis⟩
  · exact ⟨hB, I.due, I.st, I.vis⟩

theorem inv_commit (hm : 1 ≤ c.maxSize) (hx : NoMix c) (I : Inv c H w) {p m : Nat} (h : step c w (.commit p m) = some w') : Inv c H w' := by
  have hB := base_commit I.toBase h
  simp only [step] at h
  split at h
  · rename_i hc
    obtain ⟨hlen, hall⟩ := hc
    cases h
    set es := ((w.ev p).drop (w.com p)).take m with hes
    refine ⟨hB, I.due, I.st, ?_⟩
    · intro q k
      show ofKey k (upd w.vis p _ q) = outsAt c q k (w.base q + upd w.com p _ q)
      by_cases hq : q = p
      · subst hq
        rw [upd_self, upd_self, ofKey_append, I.vis, I.outs_seg q k (w.com q) m hlen, ofKey_flat]
        congr 1
        rw [I.flat q (pk k ((w.prod q).filter fun e => decide (e.1 ∈ es))) (fun e he => (List.mem_filter.mp (List.mem_filter.mp he).1).1)]
        congr 1
        -- the completed events among these, of this key, are these in order
        have hsplit : w.ev q = (w.ev q).take (w.com q) ++ es ++ (w.ev q).drop (w.com q + m) := by
          rw [hes, List.append_assoc]
          conv => lhs; rw [← List.take_append_drop (w.com q) (w.ev q)]
          congr 1
          rw [← List.drop_drop, List.take_append_drop]
        have e1 : (w.ev q).filter (fun y => decide (y ∈ es)) = es := by
          have := filter_split_mem (a := (w.ev q).take (w.com q)) (es := es) (b := (w.ev q).drop (w.com q + m)) (by rw [← hsplit]; exact I.nodup q)
          rw [← hsplit] at this; exact this
        have e2 : (pk k ((w.prod q).filter fun e => decide (e.1 ∈ es))).map Prod.fst = (fk k ((w.prod q).map Prod.fst)).filter fun y => decide (y ∈ es) := by
          rw [pk_fst]
          have : ((w.prod q).filter fun e => decide (e.1 ∈ es)).map Prod.fst = ((w.prod q).map Prod.fst).filter fun y => decide (y ∈ es) := by
            rw [List.filter_map]; rfl
          rw [this]
          unfold fk
          rw [List.filter_comm]
        rw [e2]
        obtain ⟨t, ht⟩ := I.pre_ev hm hx q k
        have e3 : (fk k (w.ev q)).filter (fun y => decide (y ∈ es)) = fk k es := by
          unfold fk
          rw [List.filter_comm]
          rw [e1]
        rw [← e3, ← ht, List.filter_append]
        have e4 : t.filter (fun y => decide (y ∈ es)) = [] := by
          rw [List.filter_eq_nil_iff]
          intro y hy; simp only [decide_eq_true_eq]
          intro hye
          have hk : y.key = k := by
            have : y ∈ fk k (w.ev q) := by rw [← ht]; exact List.mem_append_right _ hy
            simpa using (List.mem_filter.mp this).2
          have hp : y ∈ fk k ((w.prod q).map Prod.fst) := List.mem_filter.mpr ⟨hall y hye, by simp [hk]⟩
          have hn : (fk k (w.ev q)).Nodup := (I.nodup q).filter _
          rw [← ht, List.nodup_append] at hn
          exact hn.2.2 y hp y hy rfl
        rw [e4, List.append_nil]
      · rw [upd_other _ _ hq, upd_other _ _ hq]; exact I.vis q k
  · cases h

theorem inv_step (hm : 1 ≤ c.maxSize) (hn : NoMix c) (I : Inv c H w) {x : Act K} (h : step c w x = some w') : ∃ H', Inv c H' w' := by
  cases x with
  | arrive p => exact ⟨H, inv_arrive hm I h⟩
  | handle p => exact inv_handle hm I h
  | job p => exact ⟨H, inv_job hm hn I h⟩
  | inner l => exact ⟨H, inv_inner I h⟩
  | commit p m => exact ⟨H, inv_commit hm hn I h⟩
  | crash => cases h; exact ⟨_, boot_inv I.vis⟩

theorem inv_reach (hm : 1 ≤ c.maxSize) (hn : NoMix c) (h : Reach c w) : ∃ H, Inv c H w := by
  induction h with
  | init => exact ⟨_, boot_inv fun p k => by rw [outsAt_zero]; rfl⟩
  | step x _ hx ih => obtain ⟨H, I⟩ := ih; exact inv_step hm hn I hx

theorem Inv.st_at (I : Inv c H w) {p : Nat} {k : K} {n : Nat} (hn : n ≤ (w.ev p).length) (h : fk k ((w.prod p).map Prod.fst) = fk k ((w.ev p).take n)) :
    w.st p k = stateAt c p k (w.base p + n) := by
  rw [I.st, stateAt_eq, stateAt_eq]
  have := I.outs_seg p k 0 n (by omega)
  rw [Nat.zero_add, Nat.add_zero, List.drop_zero] at this
  rw [this, List.foldl_append, I.flat p (pk k (w.prod p)) (fun e he => (List.mem_filter.mp he).1), pk_fst, h]

theorem store_at (hm : 1 ≤ c.maxSize) (hx : NoMix c) (h : Reach c w) (p : Nat) (k : K) : ∃ o, w.wm p ≤ o ∧ o ≤ w.base p + (w.ev p).length ∧ w.st p k = stateAt c p k o := by
  obtain ⟨H, I⟩ := inv_reach hm hx h
  obtain ⟨n, hn, e⟩ := cut_at (I.pre_ev hm hx p k)
  by_cases hc : w.com p ≤ n
  · exact ⟨w.base p + n, by unfold W.wm; omega, by omega, I.st_at hn e⟩
  · refine ⟨w.base p + w.com p, Nat.le_refl _, by have := I.com p; omega, I.st_at (I.com p) ?_⟩
    -- the committed events of the key are among the first `n`
    have h1 : fk k ((w.ev p).take n) <+: fk k ((w.ev p).take (w.com p)) := by
      have : (w.ev p).take n <+: (w.ev p).take (w.com p) := List.take_prefix_take_left (by omega)
      obtain ⟨t, ht⟩ := this
      rw [← ht, fk_append]; exact List.prefix_append _ _
    have h2 : ∀ y ∈ fk k ((w.ev p).take (w.com p)), y ∈ fk k ((w.ev p).take n) := by
      intro y hy
      obtain ⟨hy1, hy2⟩ := List.mem_filter.mp hy
      rw [← e]
      exact List.mem_filter.mpr ⟨I.don p y hy1, hy2⟩
    obtain ⟨t, ht⟩ := h1
    have hn' : (fk k ((w.ev p).take (w.com p))).Nodup := ((I.nodup p).sublist (List.take_sublist _ _)).filter _
    rw [← ht, List.nodup_append] at hn'
    have : t = [] := by
      cases t with
      | nil => rfl
      | cons z t => exact absurd rfl (hn'.2.2 z (h2 z (by rw [← ht]; simp)) z (by simp))
    rw [e, ← ht, this, List.append_nil]

/-- All completed: the store is that after all events. -/
theorem store_done (hm : 1 ≤ c.maxSize) (hx : NoMix c) (h : Reach c w) (p : Nat) (k : K) (hd : ∀ y ∈ w.ev p, y.key = k → y ∈ (w.prod p).map Prod.fst) :
    w.st p k = stateAt c p k (w.base p + (w.ev p).length) := by
  obtain ⟨H, I⟩ := inv_reach hm hx h
  refine I.st_at (Nat.le_refl _) ?_
  rw [List.take_length]
  obtain ⟨t, ht⟩ := I.pre_ev hm hx p k
  have hn : (fk k (w.ev p)).Nodup := (I.nodup p).filter _
  rw [← ht, List.nodup_append] at hn
  have : t = [] := by
    cases t with
    | nil => rfl
    | cons z t =>
      have hz : z ∈ fk k (w.ev p) := by rw [← ht]; simp
      obtain ⟨hz1, hz2⟩ := List.mem_filter.mp hz
      have hzk : z.key = k := by simpa using hz2
      exact absurd rfl (hn.2.2 z (List.mem_filter.mpr ⟨hd z hz1 hzk, hz2⟩) z (by simp))
  rw [← ht, this, List.append_nil]

end Verif.Batches
