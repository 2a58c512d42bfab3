import Verif.Stages.Spec
import Verif.Keyed.Steps
/-
Proofs for C113: the invariant.
-/
namespace Verif.Stages
open Verif.Scheduler (Job sub scheds upd)
open Verif.Backlog (comps)
open Verif.Exact
open Verif.Keyed (fk fk_append fk_one fk_cons pk pk_append pk_fst sub_fk upd_self upd_other comps_prefix split_unique flatMap_congr_mem filter_split_mem reach_more)

set_option linter.unusedSectionVars false

variable {K σ X : Type} [DecidableEq K] {c : Cfg K σ X} {w w' : W K σ} {a : K → Nat}

theorem outsAt_eq (p : Nat) (k : K) (o : Nat) : outsAt c p k o = effects (whole c k) c.s0 (valsOf k ((c.src p).take o)) := by
  unfold outsAt; rw [handleAll_eq]; rfl

theorem stateAt_eq (p : Nat) (k : K) (o : Nat) : stateAt c p k o = (outsAt c p k o).foldl c.apply c.s0 := by
  unfold outsAt stateAt; rw [handleAll_eq]; rfl

/-- What is due for the record at an offset. -/
def dueAt (c : Cfg K σ X) (p o : Nat) : List Nat :=
  match (c.src p)[o]? with
  | some (k, x) => (whole c k).handle (stateAt c p k o) x
  | none => []

theorem valsOf_append (k : K) (a b : List (K × X)) : valsOf k (a ++ b) = valsOf k a ++ valsOf k b := by simp [valsOf]

theorem outsAt_succ {p o : Nat} {k' : K} {x : X} (h : (c.src p)[o]? = some (k', x)) (k : K) :
    outsAt c p k (o + 1) = outsAt c p k o ++ if k' = k then dueAt c p o else [] := by
  rw [outsAt_eq, outsAt_eq, List.take_add_one, h, valsOf_append, effects_append]
  by_cases hk : k' = k
  · subst hk
    rw [if_pos rfl]
    unfold dueAt
    rw [h]
    simp only [Option.toList, valsOf, List.filter_cons, decide_true, if_true, List.filter_nil, List.map_cons, List.map_nil, effects, List.append_nil]
    rw [stateAt_eq, outsAt_eq]
    rfl
  · rw [if_neg hk]
    simp [Option.toList, valsOf, hk, effects]

theorem outsAt_zero (p : Nat) (k : K) : outsAt c p k 0 = [] := by simp [outsAt_eq, valsOf, effects]

theorem through_none : ∀ (m i : Nat) (s : σ) (x : X), (∀ j, i ≤ j → j < i + m → ∀ s x, c.handle j s x = []) → (through c m i s x) = (s, []) := by
  intro m
  induction m with
  | zero => intro i s x _; rfl
  | succ m ih =>
    intro i s x h
    simp only [through]
    rw [h i (Nat.le_refl _) (by omega), List.foldl_nil, ih (i + 1) s x fun j h1 h2 => h j (by omega) (by omega)]
    rfl

theorem through_one : ∀ (m i b : Nat) (s : σ) (x : X), i ≤ b → b < i + m → (∀ j, i ≤ j → j < i + m → j ≠ b → ∀ s x, c.handle j s x = []) → (through c m i s x).2 = c.handle b s x := by
  intro m
  induction m with
  | zero => intro i b s x h1 h2; omega
  | succ m ih =>
    intro i b s x h1 h2 h
    simp only [through]
    by_cases hb : i = b
    · subst hb
      rw [through_none m (i + 1) _ x fun j h3 h4 => h j (by omega) (by omega) (by omega)]
      simp
    · rw [h i (Nat.le_refl _) (by omega) hb, List.foldl_nil]
      exact ih (i + 1) b s x (by omega) (by omega) fun j h3 h4 => h j (by omega) (by omega)

theorem whole_one (ha : OnePlace c a) (k : K) (s : σ) (x : X) : (whole c k).handle s x = c.handle (a k) s x :=
  through_one (c.n k + 1) 0 (a k) s x (by omega) (by have := (ha k).1; omega) fun j _ h2 h3 => (ha k).2 j (by omega) h3

/-- What was produced at the place that counts. -/
def pp (a : K → Nat) (l : List (Nat × Job K × List Nat)) : List (Job K × List Nat) := (l.filter fun e => decide (e.1 = a e.2.1.key)).map Prod.snd

theorem pp_append (l l' : List (Nat × Job K × List Nat)) : pp a (l ++ l') = pp a l ++ pp a l' := by simp [pp]

/-- The events for which the application was called at a place. -/
def pl (i : Nat) (l : List (Nat × Job K × List Nat)) : List (Job K) := (l.filter fun e => decide (e.1 = i)).map fun e => e.2.1

theorem pl_append (i : Nat) (l l' : List (Nat × Job K × List Nat)) : pl i (l ++ l') = pl i l ++ pl i l' := by simp [pl]

/-- The finished jobs of one scheduler. -/
def jst (i : Nat) (l : List (Nat × Job K)) : List (Job K) := (l.filter fun e => decide (e.1 = i)).map Prod.snd

theorem jst_append (i : Nat) (l l' : List (Nat × Job K)) : jst i (l ++ l') = jst i l ++ jst i l' := by simp [jst]

/-- The events of a key that have passed a place. -/
def A (c : Cfg K σ X) (w : W K σ) (p : Nat) (k : K) (i : Nat) : List (Job K) := if i < c.n k then sub p k (scheds (w.sch i).log) else fk k (w.dn p)

structure Ord (c : Cfg K σ X) (w : W K σ) : Prop where
  sr : ∀ i, Scheduler.Reach (c.sched i) (w.sch i)
  evs : ∀ p i y, (w.ev p)[i]? = some y → y.caller = p ∧ y.id < w.next ∧ w.off y.id = w.base p + i ∧ ∃ x, (c.src p)[w.base p + i]? = some (y.key, x)
  sch : ∀ i, ∀ y ∈ scheds (w.sch i).log, i < c.n y.key
  q0 : ∀ p k, A c w p k 0 ++ fk k (w.evq p) = fk k (w.ev p)
  qs : ∀ p k i, i < c.n k → A c w p k (i + 1) ++ fk k (jst i (w.jobs p)) = sub p k (comps (w.sch i).log)
  jb : ∀ p, ∀ e ∈ w.jobs p, e.2.caller = p ∧ e.1 < c.n e.2.key
  pl : ∀ p k i, i ≤ c.n k → fk k (pl i (w.prod p)) = A c w p k i

structure Inv (c : Cfg K σ X) (a : K → Nat) (w : W K σ) : Prop extends Ord c w where
  pr : ∀ p k, fk k ((pp a (w.prod p)).map Prod.fst) = A c w p k (a k)
  pe : ∀ p, ∀ e ∈ w.prod p, e.1 ≠ a e.2.1.key → e.2.2 = []
  due : ∀ p, ∀ e ∈ pp a (w.prod p), e.2 = dueAt c p (w.off e.1.id)
  st : ∀ p k, w.st p k = ((pk k (pp a (w.prod p))).flatMap Prod.snd).foldl c.apply (stateAt c p k (w.base p))
  com : ∀ p, w.com p ≤ (w.ev p).length
  vis : ∀ p k, ofKey k (w.vis p) = outsAt c p k (w.wm p)

theorem boot_ord {vis : Nat → List (K × Nat)} {wm : Nat → Nat} : Ord c (boot c vis wm) where
  sr := fun i => ⟨[], rfl⟩
  evs := by intro p i y h; simp [boot] at h
  sch := by intro i y h; simp [boot, Scheduler.init, scheds] at h
  q0 := by intro p k; simp [A, boot, Scheduler.init, scheds, sub, fk]
  qs := by intro p k i _; simp [A, boot, Scheduler.init, scheds, comps, sub, fk, jst]
  jb := by intro p y h; simp [boot] at h
  pl := by intro p k i _; simp [A, boot, Scheduler.init, scheds, sub, fk, Stages.pl]

theorem boot_inv (a : K → Nat) {vis : Nat → List (K × Nat)} {wm : Nat → Nat} (h : ∀ p k, ofKey k (vis p) = outsAt c p k (wm p)) : Inv c a (boot c vis wm) where
  toOrd := boot_ord
  pr := by intro p k; simp [A, boot, Scheduler.init, scheds, sub, fk, pp]
  pe := by intro p e h; simp [boot] at h
  due := by intro p e h; simp [boot, pp] at h
  st := by
    intro p k
    simp only [boot, pp, pk, List.filter_nil, List.flatMap_nil, List.foldl_nil, List.map_nil]
    rw [h, stateAt_eq]
  com := by intro p; simp [boot]
  vis := by intro p k; simpa [boot, W.wm] using h p k

theorem Ord.caller (I : Ord c w) {p : Nat} {y : Job K} (h : y ∈ w.ev p) : y.caller = p ∧ y.id < w.next := by
  obtain ⟨i, hi, hg⟩ := List.getElem_of_mem h
  have := I.evs p i y (by rw [List.getElem?_eq_getElem hi, hg])
  exact ⟨this.1, this.2.1⟩

theorem Ord.evq_mem (I : Ord c w) {p : Nat} {y : Job K} (h : y ∈ w.evq p) : y ∈ w.ev p := by
  have hm : y ∈ fk y.key (w.evq p) := List.mem_filter.mpr ⟨h, by simp⟩
  have : y ∈ fk y.key (w.ev p) := by rw [← I.q0 p y.key]; exact List.mem_append_right _ hm
  exact (List.mem_filter.mp this).1

/-- Events of a key pass the places in order. -/
theorem Ord.comp_pre (I : Ord c w) (p : Nat) (k : K) {i : Nat} (h : i < c.n k) : sub p k (comps (w.sch i).log) <+: A c w p k i := by
  have := comps_prefix (I.sr i) p k
  unfold A; rw [if_pos h]; exact this

theorem Ord.next_pre (I : Ord c w) (p : Nat) (k : K) {i : Nat} (h : i < c.n k) : A c w p k (i + 1) <+: A c w p k i := by
  refine List.IsPrefix.trans ?_ (I.comp_pre p k h)
  rw [← I.qs p k i h]; exact List.prefix_append _ _

theorem Ord.mono (I : Ord c w) (p : Nat) (k : K) {i : Nat} : ∀ d, i + d ≤ c.n k → A c w p k (i + d) <+: A c w p k i := by
  intro d
  induction d with
  | zero => intro _; exact List.prefix_refl _
  | succ d ih => intro h; exact (I.next_pre p k (i := i + d) (by omega)).trans (ih (by omega))

theorem Ord.place_pre (I : Ord c w) (p : Nat) (k : K) {i : Nat} (h : i ≤ c.n k) : A c w p k i <+: fk k (w.ev p) := by
  have h1 := I.mono p k (i := 0) i (by omega)
  rw [Nat.zero_add] at h1
  exact h1.trans (by rw [← I.q0 p k]; exact List.prefix_append _ _)

theorem Inv.pre (ha : OnePlace c a) (I : Inv c a w) (p : Nat) (k : K) : fk k ((pp a (w.prod p)).map Prod.fst) <+: fk k (w.ev p) := by
  rw [I.pr]; exact I.place_pre p k (ha k).1

theorem Inv.prod_mem (ha : OnePlace c a) (I : Inv c a w) {p : Nat} {e : Job K × List Nat} (h : e ∈ pp a (w.prod p)) : e.1 ∈ w.ev p := by
  have : e.1 ∈ fk e.1.key ((pp a (w.prod p)).map Prod.fst) := List.mem_filter.mpr ⟨List.mem_map.mpr ⟨e, h, rfl⟩, by simp⟩
  exact (List.mem_filter.mp ((I.pre ha p e.1.key).subset this)).1

theorem Ord.nodup (I : Ord c w) (p : Nat) : (w.ev p).Nodup := by
  rw [List.nodup_iff_getElem?_ne_getElem?]
  intro i j hij hj h
  have hi := I.evs p i ((w.ev p)[j]) (by rw [h, List.getElem?_eq_getElem hj])
  have hj' := I.evs p j ((w.ev p)[j]) (List.getElem?_eq_getElem hj)
  omega

/-- The records due for a stretch of events. -/
theorem Inv.outs_seg (I : Inv c a w) (p : Nat) (k : K) (i : Nat) : ∀ m, i + m ≤ (w.ev p).length →
    outsAt c p k (w.base p + (i + m)) = outsAt c p k (w.base p + i) ++ (fk k (((w.ev p).drop i).take m)).flatMap fun y => dueAt c p (w.off y.id) := by
  intro m
  induction m with
  | zero => intro _; simp [fk]
  | succ m ih =>
    intro hm
    have hy : (w.ev p)[i + m]? = some ((w.ev p)[i + m]'(by omega)) := List.getElem?_eq_getElem _
    obtain ⟨-, -, ho, x, hx⟩ := I.evs p (i + m) _ hy
    have e1 : w.base p + (i + (m + 1)) = w.base p + (i + m) + 1 := by omega
    rw [e1, outsAt_succ hx, ih (by omega), List.take_add_one, List.getElem?_drop, hy, fk_append, List.flatMap_append, List.append_assoc]
    congr 2
    by_cases hk : ((w.ev p)[i + m]'(by omega)).key = k
    · rw [if_pos hk]; simp [fk, hk, ho]
    · rw [if_neg hk]; simp [fk, hk]

/-- What was produced for events of a key is what is due for them. -/
theorem Inv.flat (I : Inv c a w) (p : Nat) (l : List (Job K × List Nat)) (hl : ∀ e ∈ l, e ∈ pp a (w.prod p)) :
    l.flatMap Prod.snd = (l.map Prod.fst).flatMap fun y => dueAt c p (w.off y.id) := by
  rw [List.flatMap_map]
  exact flatMap_congr_mem fun e he => I.due p e (hl e he)

/-- The next event of its key at a place: its record. -/
theorem Ord.ready (I : Ord c w) {p i : Nat} {y : Job K} {rest : List (Job K)} (h : A c w p y.key i ++ y :: rest = fk y.key (w.ev p)) :
    y.caller = p ∧ ∃ x, value c w y = some x := by
  have hy : y ∈ w.ev p := by
    have : y ∈ fk y.key (w.ev p) := by rw [← h]; simp
    exact (List.mem_filter.mp this).1
  obtain ⟨j, hi, hg⟩ := List.getElem_of_mem hy
  have hgi : (w.ev p)[j]? = some y := by rw [List.getElem?_eq_getElem hi, hg]
  obtain ⟨h1, h2, h3, x, hx⟩ := I.evs p j y hgi
  exact ⟨h1, x, by unfold value; rw [h1, h3, hx]; rfl⟩

/-- The next event of its key at a place: its record, and, if it is the place that counts, the store as after the events before it. -/
theorem Inv.ready (ha : OnePlace c a) (I : Inv c a w) {p i : Nat} {y : Job K} {rest : List (Job K)} (h : A c w p y.key i ++ y :: rest = fk y.key (w.ev p)) :
    y.caller = p ∧ ∃ x, value c w y = some x ∧ (i = a y.key → dueAt c p (w.off y.id) = c.handle i (w.st p y.key) x) := by
  have hy : y ∈ w.ev p := by
    have : y ∈ fk y.key (w.ev p) := by rw [← h]; simp
    exact (List.mem_filter.mp this).1
  obtain ⟨j, hi, hg⟩ := List.getElem_of_mem hy
  have hgi : (w.ev p)[j]? = some y := by rw [List.getElem?_eq_getElem hi, hg]
  obtain ⟨h1, h2, h3, x, hx⟩ := I.evs p j y hgi
  refine ⟨h1, x, ?_, ?_⟩
  · unfold value; rw [h1, h3, hx]; rfl
  rintro rfl
  have hsplit : w.ev p = (w.ev p).take j ++ y :: (w.ev p).drop (j + 1) := by
    rw [← hg, ← List.drop_eq_getElem_cons hi, List.take_append_drop]
  have e2 : fk y.key (w.ev p) = fk y.key ((w.ev p).take j) ++ y :: fk y.key ((w.ev p).drop (j + 1)) := by
    conv => lhs; rw [hsplit]
    rw [fk_append]; simp [fk]
  have hn : (fk y.key (w.ev p)).Nodup := (I.nodup p).filter _
  have e3 : A c w p y.key (a y.key) = fk y.key ((w.ev p).take j) := by
    refine split_unique (b := rest) (b' := fk y.key ((w.ev p).drop (j + 1))) (y := y) (h.trans e2) ?_
    rw [h]; exact hn
  have e4 : w.st p y.key = stateAt c p y.key (w.off y.id) := by
    rw [I.st, stateAt_eq, stateAt_eq, h3]
    have := I.outs_seg p y.key 0 j (by omega)
    rw [Nat.zero_add, Nat.add_zero, List.drop_zero] at this
    rw [this, List.foldl_append, I.flat p (pk y.key (pp a (w.prod p))) (fun e he => (List.mem_filter.mp he).1), pk_fst, I.pr, e3]
  unfold dueAt
  rw [e4, h3, hx]
  exact whole_one ha _ _ _

end Verif.Stages
