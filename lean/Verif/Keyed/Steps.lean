import Verif.Keyed.Proofs
import Verif.Backlog.Ends
/-
Proofs for C112: all steps keep the invariant.
-/
namespace Verif.Keyed
open Verif.Scheduler (Job sub scheds upd)
open Verif.Backlog (comps)
open Verif.Exact

set_option linter.unusedSectionVars false

variable {K σ X : Type} [DecidableEq K] {c : Cfg K σ X} {w w' : W K σ} {sel : K → Bool}

theorem upd_self {β : Type} (f : Nat → β) (i : Nat) (v : β) : upd f i v i = v := by simp [upd]
theorem upd_other {β : Type} (f : Nat → β) {i j : Nat} (v : β) (h : j ≠ i) : upd f i v j = f j := by simp [upd, h]

theorem fk_one (k : K) (y : Job K) : fk k [y] = if y.key = k then [y] else [] := by
  by_cases h : y.key = k <;> simp [fk, h]

theorem fk_cons (k : K) (y : Job K) (l : List (Job K)) : fk k (y :: l) = (if y.key = k then [y] else []) ++ fk k l := by
  rw [← fk_one, ← fk_append]; rfl

/-- The completed events after one more. -/
theorem prod_fst (k : K) (p q : Nat) (y : Job K) (rs : List Nat) :
    fk k ((upd w.prod p (w.prod p ++ [(y, rs)]) q).map Prod.fst) = fk k ((w.prod q).map Prod.fst) ++ if q = p ∧ y.key = k then [y] else [] := by
  by_cases hq : q = p
  · subst hq
    rw [upd_self, List.map_append, fk_append]
    simp only [List.map_cons, List.map_nil, fk_one, true_and]
  · rw [upd_other _ _ hq]; simp [hq]

/-- The application works on the next event of a key. -/
theorem inv_work (I : Inv c sel w) {evq' jobs' : Nat → List (Job K)} {p : Nat} {y : Job K} {rest : List (Job K)} {x : X}
    (h : fk y.key ((w.prod p).map Prod.fst) ++ y :: rest = fk y.key (w.ev p)) (hx : value c w y = some x)
    (hA : ∀ q k, sel k = true → sub q k (scheds w.sch.log) ++ fk k (evq' q) = fk k (w.ev q))
    (hB : ∀ q k, sel k = false → fk k ((w.prod q).map Prod.fst) ++ (if q = p ∧ y.key = k then [y] else []) ++ fk k (evq' q) = fk k (w.ev q))
    (hC : ∀ q k, sel k = true → fk k ((w.prod q).map Prod.fst) ++ (if q = p ∧ y.key = k then [y] else []) ++ fk k (jobs' q) = sub q k (comps w.sch.log))
    (hJ : ∀ q, ∀ z ∈ jobs' q, z.caller = q ∧ sel z.key = true) : Inv c sel (work c { w with evq := evq', jobs := jobs' } y x) := by
  obtain ⟨x', hx', hst, hdue, hcal⟩ := I.ready h
  rw [hx] at hx'
  cases hx'
  subst hcal
  refine ⟨I.sr, I.evs, I.sch, hA, ?_, ?_, hJ, ?_, ?_, I.com, I.vis⟩
  · intro q k hk
    show fk k ((upd w.prod _ _ q).map Prod.fst) ++ _ = _
    rw [prod_fst]; exact hB q k hk
  · intro q k hk
    show fk k ((upd w.prod _ _ q).map Prod.fst) ++ _ = _
    rw [prod_fst]; exact hC q k hk
  · intro q e he
    have he' : e ∈ upd w.prod y.caller (w.prod y.caller ++ [(y, c.app.handle (w.st y.caller y.key) x)]) q := he
    by_cases hq : q = y.caller
    · subst hq
      rw [upd_self, List.mem_append, List.mem_singleton] at he'
      rcases he' with he' | rfl
      · exact I.due _ e he'
      · exact hdue.symm
    · rw [upd_other _ _ hq] at he'; exact I.due q e he'
  · intro q k
    have hv := I.st q k
    show put w.st y.caller y.key ((c.app.handle (w.st y.caller y.key) x).foldl c.app.apply (w.st y.caller y.key)) q k =
      ((pk k (upd w.prod y.caller (w.prod y.caller ++ [(y, c.app.handle (w.st y.caller y.key) x)]) q)).flatMap Prod.snd).foldl c.app.apply (stateAt c q k (w.base q))
    by_cases hq : q = y.caller
    · subst hq
      rw [upd_self, pk_append, List.flatMap_append, List.foldl_append, ← hv]
      by_cases hk : k = y.key
      · subst hk
        simp [put, pk]
      · have hk' : ¬ y.key = k := fun h => hk h.symm
        simp [put, pk, hk, hk']
    · rw [upd_other _ _ hq, ← hv]
      simp [put, hq]

theorem inv_arrive (I : Inv c sel w) {p : Nat} (h : step c w (.arrive p) = some w') : Inv c sel w' := by
  simp only [step] at h
  split at h
  · rename_i k x hsrc
    split at h
    · cases h
      have hlt : ∀ {q : Nat} {y : Job K}, y ∈ w.ev q → y.id ≠ w.next := fun hy => by have := (I.caller hy).2; omega
      refine ⟨I.sr, ?_, I.sch, ?_, ?_, I.cA, I.jb, ?_, I.st, ?_, I.vis⟩
      · intro q i y hy
        have hy' : (upd w.ev p (w.ev p ++ [⟨k, p, w.next⟩]) q)[i]? = some y := hy
        show y.caller = q ∧ y.id < w.next + 1 ∧ upd w.off w.next _ y.id = w.base q + i ∧ _
        have old : (w.ev q)[i]? = some y → y.caller = q ∧ y.id < w.next + 1 ∧ upd w.off w.next (w.base p + (w.ev p).length) y.id = w.base q + i ∧
            ∃ x, (c.src q)[w.base q + i]? = some (y.key, x) := by
          intro h
          obtain ⟨h1, h2, h3, h4⟩ := I.evs q i y h
          exact ⟨h1, by omega, by rw [upd_other _ _ (by omega)]; exact h3, h4⟩
        by_cases hq : q = p
        · subst hq
          rw [upd_self] at hy'
          by_cases hi : i < (w.ev q).length
          · rw [List.getElem?_append_left hi] at hy'; exact old hy'
          · rw [List.getElem?_append_right (by omega)] at hy'
            have hi0 : i = (w.ev q).length := by
              by_contra hne
              rw [List.getElem?_eq_none (by simp; omega)] at hy'
              cases hy'
            subst hi0
            simp at hy'
            subst hy'
            exact ⟨rfl, by simp, by simp [upd], x, hsrc⟩
        · rw [upd_other _ _ hq] at hy'; exact old hy'
      · intro q k' hk
        show _ ++ fk k' (upd w.evq p _ q) = fk k' (upd w.ev p _ q)
        by_cases hq : q = p
        · subst hq; rw [upd_self, upd_self, fk_append, fk_append, ← List.append_assoc, I.qA _ _ hk]
        · rw [upd_other _ _ hq, upd_other _ _ hq]; exact I.qA _ _ hk
      · intro q k' hk
        show _ ++ fk k' (upd w.evq p _ q) = fk k' (upd w.ev p _ q)
        by_cases hq : q = p
        · subst hq; rw [upd_self, upd_self, fk_append, fk_append, ← List.append_assoc, I.qB _ _ hk]
        · rw [upd_other _ _ hq, upd_other _ _ hq]; exact I.qB _ _ hk
      · intro q e he
        show e.2 = dueAt c q (upd w.off w.next _ e.1.id)
        rw [upd_other _ _ (hlt (I.prod_mem he))]
        exact I.due q e he
      · intro q
        show w.com q ≤ (upd w.ev p _ q).length
        have := I.com q
        by_cases hq : q = p
        · subst hq; rw [upd_self]; simp; omega
        · rw [upd_other _ _ hq]; exact this
    · cases h
  · cases h

theorem inv_handle (hu : ∀ k x, c.async k x = sel k) (I : Inv c sel w) {p : Nat} (ho : w.sch.closed = false) (h : step c w (.handle p) = some w') : Inv c sel w' := by
  simp only [step] at h
  split at h
  · rename_i y rest hi hq
    split at h
    · rename_i x hx
      have hmem := I.evq_mem (p := p) (y := y) (by rw [hq]; simp)
      have hcal := (I.caller hmem).1
      rw [hu, ho] at h
      split at h
      · rename_i hs
        simp only [Bool.false_eq_true, if_false, Option.map_eq_some_iff] at h
        obtain ⟨sch, h1, h2⟩ := h
        subst h2
        obtain ⟨-, -, e⟩ := Backlog.call_same h1
        have hl : sch.log = w.sch.log ++ [.sched y] := by rw [e]
        have hsc : scheds sch.log = scheds w.sch.log ++ [y] := by rw [hl]; simp [scheds]
        have hco : comps sch.log = comps w.sch.log := by rw [hl]; simp [comps]
        have hsr : Scheduler.Reach c.sched sch := by
          obtain ⟨ls, hls⟩ := I.sr
          refine ⟨ls ++ [.call y], ?_⟩
          have key : ∀ (ls : List (Scheduler.Label K)) (s0 : Scheduler.State K), Scheduler.run s0 ls = some w.sch → Scheduler.run s0 (ls ++ [.call y]) = some sch := by
            intro ls
            induction ls with
            | nil => intro s0 h; cases h; simp [Scheduler.run, h1]
            | cons a ls ih =>
              intro s0 h
              simp only [Scheduler.run, Option.bind_eq_some_iff, List.cons_append] at h ⊢
              obtain ⟨s1, h2, h3⟩ := h
              exact ⟨s1, h2, ih s1 h3⟩
          exact key ls _ hls
        refine ⟨hsr, I.evs, ?_, ?_, ?_, ?_, I.jb, I.due, I.st, I.com, I.vis⟩
        · intro z hz
          have hz' : z ∈ scheds sch.log := hz
          rw [hsc, List.mem_append, List.mem_singleton] at hz'
          rcases hz' with hz' | rfl
          · exact I.sch z hz'
          · exact hs
        · intro q k hk
          show sub q k (scheds sch.log) ++ fk k (upd w.evq p rest q) = _
          rw [hsc, Scheduler.sub_append]
          have := I.qA q k hk
          by_cases hqp : q = p
          · subst hqp
            rw [upd_self, ← this, hq, fk_cons, ← List.append_assoc]
            congr 2
            by_cases hky : y.key = k <;> simp [sub, hcal, hky]
          · rw [upd_other _ _ hqp, ← this]
            have : sub q k [y] = [] := by
              have : ¬ p = q := fun h => hqp h.symm
              simp [sub, hcal, this]
            rw [this, List.append_nil]
        · intro q k hk
          show _ ++ fk k (upd w.evq p rest q) = _
          have := I.qB q k hk
          by_cases hqp : q = p
          · subst hqp
            rw [upd_self, ← this, hq, fk_cons, if_neg (by rintro rfl; rw [hs] at hk; cases hk), List.nil_append]
          · rw [upd_other _ _ hqp]; exact this
        · intro q k hk
          show _ = sub q k (comps sch.log)
          rw [hco]; exact I.cA q k hk
      · rename_i hs
        have hs' : sel y.key = false := by simpa using hs
        cases h
        have hB := I.qB p y.key hs'
        rw [hq, fk_cons, if_pos rfl] at hB
        refine inv_work I (jobs' := w.jobs) (rest := fk y.key rest) (p := p) (by simpa using hB) hx ?_ ?_ ?_ I.jb
        · intro q k hk
          have := I.qA q k hk
          by_cases hqp : q = p
          · subst hqp
            rw [upd_self, ← this, hq, fk_cons, if_neg (by rintro rfl; rw [hs'] at hk; cases hk), List.nil_append]
          · rw [upd_other _ _ hqp]; exact this
        · intro q k hk
          have := I.qB q k hk
          by_cases hqp : q = p
          · subst hqp
            rw [upd_self, ← this, hq, fk_cons]; simp
          · rw [upd_other _ _ hqp, if_neg (by simp [hqp]), List.append_nil]; exact this
        · intro q k hk
          rw [if_neg (by rintro ⟨-, rfl⟩; rw [hs'] at hk; cases hk), List.append_nil]
          exact I.cA q k hk
    · cases h
  · cases h

theorem inv_job (I : Inv c sel w) {p : Nat} (h : step c w (.job p) = some w') : Inv c sel w' := by
  simp only [step] at h
  split at h
  · rename_i y rest hi hq
    split at h
    · rename_i x hx
      cases h
      obtain ⟨hcal, hs⟩ := I.jb p y (by rw [hq]; simp)
      have hC := I.cA p y.key hs
      rw [hq, fk_cons, if_pos rfl] at hC
      have hp : fk y.key ((w.prod p).map Prod.fst) ++ ([y] ++ fk y.key rest) <+: fk y.key (w.ev p) := by
        rw [hC]
        exact (comps_prefix I.sr p y.key).trans (by rw [← I.qA p y.key hs]; exact List.prefix_append _ _)
      obtain ⟨t, ht⟩ := hp
      refine inv_work I (evq' := w.evq) (rest := fk y.key rest ++ t) (p := p) (by rw [← ht]; simp) hx I.qA ?_ ?_ ?_
      · intro q k hk
        rw [if_neg (by rintro ⟨-, rfl⟩; rw [hs] at hk; cases hk), List.append_nil]
        exact I.qB q k hk
      · intro q k hk
        have := I.cA q k hk
        by_cases hqp : q = p
        · subst hqp
          rw [upd_self, ← this, hq, fk_cons]; simp
        · rw [upd_other _ _ hqp, if_neg (by simp [hqp]), List.append_nil]; exact this
      · intro q z hz
        by_cases hqp : q = p
        · subst hqp
          rw [upd_self] at hz
          exact I.jb q z (by rw [hq]; simp [hz])
        · rw [upd_other _ _ hqp] at hz; exact I.jb q z hz
    · cases h
  · cases h

theorem reach_more {c : Scheduler.Config} {s s' : Scheduler.State K} {l : Scheduler.Label K} (h : Scheduler.Reach c s) (hs : Scheduler.step s l = some s') : Scheduler.Reach c s' := by
  obtain ⟨ls, hls⟩ := h
  refine ⟨ls ++ [l], ?_⟩
  have key : ∀ (ls : List (Scheduler.Label K)) (s0 : Scheduler.State K), Scheduler.run s0 ls = some s → Scheduler.run s0 (ls ++ [l]) = some s' := by
    intro ls
    induction ls with
    | nil => intro s0 h; cases h; simp [Scheduler.run, hs]
    | cons a ls ih =>
      intro s0 h
      simp only [Scheduler.run, Option.bind_eq_some_iff, List.cons_append] at h ⊢
      obtain ⟨s1, h2, h3⟩ := h
      exact ⟨s1, h2, ih s1 h3⟩
  exact key ls _ hls

theorem inv_inner (I : Inv c sel w) {l : Scheduler.Label K} (h : step c w (.inner l) = some w') : Inv c sel w' := by
  have quiet : ∀ sch, (∀ x, l ≠ .call x) → (∀ t, l ≠ .complete t) → Scheduler.step w.sch l = some sch → Inv c sel { w with sch := sch } := by
    intro sch h1 h2 h3
    obtain ⟨e1, e2⟩ := Backlog.quiet_log h3 h1 h2
    refine ⟨reach_more I.sr h3, I.evs, ?_, ?_, I.qB, ?_, I.jb, I.due, I.st, I.com, I.vis⟩
    · intro y hy
      have hy' : y ∈ scheds sch.log := hy
      rw [e1] at hy'; exact I.sch y hy'
    · intro q k hk
      show sub q k (scheds sch.log) ++ _ = _
      rw [e1]; exact I.qA q k hk
    · intro q k hk
      show _ = sub q k (comps sch.log)
      rw [e2]; exact I.cA q k hk
  cases l with
  | call x => simp [step] at h
  | complete t =>
    simp only [step] at h
    split at h
    · rename_i v y ht
      split at h
      · simp only [Option.map_eq_some_iff] at h
        obtain ⟨sch, h1, h2⟩ := h
        subst h2
        have hsr := reach_more I.sr h1
        have hl : sch.log = w.sch.log ++ [.comp y] := by
          simp only [Scheduler.step, ht, Option.some.injEq] at h1
          rw [← h1]
        have hsc : scheds sch.log = scheds w.sch.log := by rw [hl]; simp [scheds]
        have hco : comps sch.log = comps w.sch.log ++ [y] := by rw [hl]; simp [comps]
        have hy : y ∈ scheds w.sch.log := by
          have : y ∈ sub y.caller y.key (comps sch.log) := by
            unfold sub; rw [List.mem_filter, hco]; simp
          have := (comps_prefix hsr y.caller y.key).subset this
          unfold sub at this
          rw [List.mem_filter, hsc] at this
          exact this.1
        have hs := I.sch y hy
        refine ⟨hsr, I.evs, ?_, ?_, I.qB, ?_, ?_, I.due, I.st, I.com, I.vis⟩
        · intro z hz
          have hz' : z ∈ scheds sch.log := hz
          rw [hsc] at hz'; exact I.sch z hz'
        · intro q k hk
          show sub q k (scheds sch.log) ++ _ = _
          rw [hsc]; exact I.qA q k hk
        · intro q k hk
          show _ ++ fk k (upd w.jobs y.caller _ q) = sub q k (comps sch.log)
          rw [hco, Scheduler.sub_append, ← I.cA q k hk]
          by_cases hq : q = y.caller
          · subst hq
            rw [upd_self, fk_append, ← List.append_assoc]
            congr 1
            by_cases hky : y.key = k <;> simp [sub, fk, hky]
          · rw [upd_other _ _ hq]
            have hq' : ¬ y.caller = q := fun h => hq h.symm
            simp [sub, hq']
        · intro q z hz
          have hz' : z ∈ upd w.jobs y.caller (w.jobs y.caller ++ [y]) q := hz
          by_cases hq : q = y.caller
          · subst hq
            rw [upd_self, List.mem_append, List.mem_singleton] at hz'
            rcases hz' with hz' | rfl
            · exact I.jb _ z hz'
            · exact ⟨rfl, hs⟩
          · rw [upd_other _ _ hq] at hz'; exact I.jb q z hz'
      · cases h
    · cases h
  | _ =>
    simp only [step, Option.map_eq_some_iff] at h
    obtain ⟨sch, e1, e2⟩ := h
    subst e2
    exact quiet sch (by simp) (by simp) e1

theorem ofKey_append (k : K) (a b : List (K × Nat)) : ofKey k (a ++ b) = ofKey k a ++ ofKey k b := by simp [ofKey]

theorem ofKey_flat (k : K) (l : List (Job K × List Nat)) : ofKey k (l.flatMap fun e => e.2.map fun r => (e.1.key, r)) = (pk k l).flatMap Prod.snd := by
  induction l with
  | nil => rfl
  | cons e l ih =>
    rw [List.flatMap_cons, ofKey_append, ih]
    have : pk k (e :: l) = pk k [e] ++ pk k l := by rw [← pk_append]; rfl
    rw [this, List.flatMap_append]
    congr 1
    by_cases h : e.1.key = k
    · simp [ofKey, pk, h, List.filter_map, Function.comp_def]
    · simp [ofKey, pk, h, List.filter_map, Function.comp_def]

theorem filter_split_mem {α : Type} [DecidableEq α] {a es b : List α} (hn : (a ++ es ++ b).Nodup) : (a ++ es ++ b).filter (fun y => decide (y ∈ es)) = es := by
  rw [List.nodup_append, List.nodup_append] at hn
  obtain ⟨⟨h1, h2, h3⟩, h4, h5⟩ := hn
  rw [List.filter_append, List.filter_append]
  have e1 : a.filter (fun y => decide (y ∈ es)) = [] := by
    rw [List.filter_eq_nil_iff]
    intro y hy; simp only [decide_eq_true_eq]
    intro hes; exact h3 y hy y hes rfl
  have e2 : b.filter (fun y => decide (y ∈ es)) = [] := by
    rw [List.filter_eq_nil_iff]
    intro y hy; simp only [decide_eq_true_eq]
    intro hes; exact h5 y (List.mem_append_right _ hes) y hy rfl
  have e3 : es.filter (fun y => decide (y ∈ es)) = es := by
    rw [List.filter_eq_self]; intro y hy; simpa using hy
  rw [e1, e2, e3]; simp

theorem inv_commit (I : Inv c sel w) {p m : Nat} (h : step c w (.commit p m) = some w') : Inv c sel w' := by
  simp only [step] at h
  split at h
  · rename_i hc
    obtain ⟨hlen, hall⟩ := hc
    cases h
    set es := ((w.ev p).drop (w.com p)).take m with hes
    refine ⟨I.sr, I.evs, I.sch, I.qA, I.qB, I.cA, I.jb, I.due, I.st, ?_, ?_⟩
    · intro q
      show upd w.com p _ q ≤ _
      by_cases hq : q = p
      · subst hq; rw [upd_self]; exact hlen
      · rw [upd_other _ _ hq]; exact I.com q
    · intro q k
      show ofKey k (upd w.vis p _ q) = outsAt c q k (w.base q + upd w.com p _ q)
      by_cases hq : q = p
      · subst hq
        rw [upd_self, upd_self, ofKey_append, I.vis, I.outs_seg q k (w.com q) m hlen, ofKey_flat]
        congr 1
        rw [I.flat q (pk k ((w.prod q).filter fun e => decide (e.1 ∈ es))) (fun e he => (List.mem_filter.mp (List.mem_filter.mp he).1).1)]
        congr 1
        -- the completed events among these, of this key, are these in order
        have hsplit : w.ev q = (w.ev q).take (w.com q) ++ es ++ (w.ev q).drop (w.com q + m) := by
          rw [hes, List.append_assoc]
          conv => lhs; rw [← List.take_append_drop (w.com q) (w.ev q)]
          congr 1
          rw [← List.drop_drop, List.take_append_drop]
        have e1 : (w.ev q).filter (fun y => decide (y ∈ es)) = es := by
          have := filter_split_mem (a := (w.ev q).take (w.com q)) (es := es) (b := (w.ev q).drop (w.com q + m)) (by rw [← hsplit]; exact I.nodup q)
          rw [← hsplit] at this; exact this
        have e2 : (pk k ((w.prod q).filter fun e => decide (e.1 ∈ es))).map Prod.fst = (fk k ((w.prod q).map Prod.fst)).filter fun y => decide (y ∈ es) := by
          rw [pk_fst]
          have : ((w.prod q).filter fun e => decide (e.1 ∈ es)).map Prod.fst = ((w.prod q).map Prod.fst).filter fun y => decide (y ∈ es) := by
            rw [List.filter_map]; rfl
          rw [this]
          unfold fk
          rw [List.filter_comm]
        rw [e2]
        obtain ⟨t, ht⟩ := I.pre q k
        have e3 : (fk k (w.ev q)).filter (fun y => decide (y ∈ es)) = fk k es := by
          unfold fk
          rw [List.filter_comm]
          rw [e1]
        rw [← e3, ← ht, List.filter_append]
        have e4 : t.filter (fun y => decide (y ∈ es)) = [] := by
          rw [List.filter_eq_nil_iff]
          intro y hy; simp only [decide_eq_true_eq]
          intro hye
          have hk : y.key = k := by
            have : y ∈ fk k (w.ev q) := by rw [← ht]; exact List.mem_append_right _ hy
            simpa using (List.mem_filter.mp this).2
          have hp : y ∈ fk k ((w.prod q).map Prod.fst) := List.mem_filter.mpr ⟨hall y hye, by simp [hk]⟩
          have hn : (fk k (w.ev q)).Nodup := (I.nodup q).filter _
          rw [← ht, List.nodup_append] at hn
          exact hn.2.2 y hp y hy rfl
        rw [e4, List.append_nil]
      · rw [upd_other _ _ hq, upd_other _ _ hq]; exact I.vis q k
  · cases h

theorem inv_step (hu : ∀ k x, c.async k x = sel k) (I : Inv c sel w) {x : Act K} (ho : Open w x) (h : step c w x = some w') : Inv c sel w' := by
  cases x with
  | arrive p => exact inv_arrive I h
  | handle p => exact inv_handle hu I ho h
  | job p => exact inv_job I h
  | inner l => exact inv_inner I h
  | commit p m => exact inv_commit I h
  | crash => cases h; exact boot_inv sel I.vis

theorem inv_reach (hu : ∀ k x, c.async k x = sel k) (h : Reach c Open w) : Inv c sel w := by
  induction h with
  | init => exact boot_inv sel fun p k => by rw [outsAt_zero]; rfl
  | step x _ ho hx ih => exact inv_step hu ih ho hx

end Verif.Keyed
