import Verif.Keyed.Order
/-
Proofs for C112: the invariant.
-/
namespace Verif.Keyed
open Verif.Scheduler (Job sub scheds)
open Verif.Backlog (comps)
open Verif.Exact

set_option linter.unusedSectionVars false

variable {K σ X : Type} [DecidableEq K] {c : Cfg K σ X} {w w' : W K σ}

theorem outsAt_eq (p : Nat) (k : K) (o : Nat) : outsAt c p k o = effects c.app c.app.s0 (valsOf k ((c.src p).take o)) := by
  unfold outsAt; rw [handleAll_eq]

theorem stateAt_eq (p : Nat) (k : K) (o : Nat) : stateAt c p k o = (outsAt c p k o).foldl c.app.apply c.app.s0 := by
  unfold outsAt stateAt; rw [handleAll_eq]

/-- What is due for the record at an offset. -/
def dueAt (c : Cfg K σ X) (p o : Nat) : List Nat :=
  match (c.src p)[o]? with
  | some (k, x) => c.app.handle (stateAt c p k o) x
  | none => []

theorem valsOf_append (k : K) (a b : List (K × X)) : valsOf k (a ++ b) = valsOf k a ++ valsOf k b := by simp [valsOf]

theorem outsAt_succ {p o : Nat} {k' : K} {x : X} (h : (c.src p)[o]? = some (k', x)) (k : K) :
    outsAt c p k (o + 1) = outsAt c p k o ++ if k' = k then dueAt c p o else [] := by
  rw [outsAt_eq, outsAt_eq, List.take_add_one, h, valsOf_append, effects_append]
  by_cases hk : k' = k
  · subst hk
    rw [if_pos rfl]
    unfold dueAt
    rw [h]
    simp only [Option.toList, valsOf, List.filter_cons, decide_true, if_true, List.filter_nil, List.map_cons, List.map_nil, effects, List.append_nil]
    rw [stateAt_eq, outsAt_eq]
    rfl
  · rw [if_neg hk]
    simp [Option.toList, valsOf, hk, effects]

/-- The events of a key in a list. -/
def fk (k : K) (l : List (Job K)) : List (Job K) := l.filter fun y => decide (y.key = k)

theorem fk_append (k : K) (a b : List (Job K)) : fk k (a ++ b) = fk k a ++ fk k b := by simp [fk]

/-- The completed events of a key with their records. -/
def pk (k : K) (l : List (Job K × List Nat)) : List (Job K × List Nat) := l.filter fun e => decide (e.1.key = k)

theorem pk_append (k : K) (a b : List (Job K × List Nat)) : pk k (a ++ b) = pk k a ++ pk k b := by simp [pk]

theorem pk_fst (k : K) (l : List (Job K × List Nat)) : (pk k l).map Prod.fst = fk k (l.map Prod.fst) := by
  unfold pk fk; rw [List.filter_map]; rfl

theorem sub_fk {p : Nat} {k : K} {l : List (Job K)} (h : ∀ y ∈ l, y.caller = p) : sub p k l = fk k l := by
  unfold sub fk
  exact List.filter_congr fun y hy => by simp [h y hy]

structure Inv (c : Cfg K σ X) (sel : K → Bool) (w : W K σ) : Prop where
  sr : Scheduler.Reach c.sched w.sch
  evs : ∀ p i y, (w.ev p)[i]? = some y → y.caller = p ∧ y.id < w.next ∧ w.off y.id = w.base p + i ∧ ∃ x, (c.src p)[w.base p + i]? = some (y.key, x)
  sch : ∀ y ∈ scheds w.sch.log, sel y.key = true
  qA : ∀ p k, sel k = true → sub p k (scheds w.sch.log) ++ fk k (w.evq p) = fk k (w.ev p)
  qB : ∀ p k, sel k = false → fk k ((w.prod p).map Prod.fst) ++ fk k (w.evq p) = fk k (w.ev p)
  cA : ∀ p k, sel k = true → fk k ((w.prod p).map Prod.fst) ++ fk k (w.jobs p) = sub p k (comps w.sch.log)
  jb : ∀ p, ∀ y ∈ w.jobs p, y.caller = p ∧ sel y.key = true
  due : ∀ p, ∀ e ∈ w.prod p, e.2 = dueAt c p (w.off e.1.id)
  st : ∀ p k, w.st p k = ((pk k (w.prod p)).flatMap Prod.snd).foldl c.app.apply (stateAt c p k (w.base p))
  com : ∀ p, w.com p ≤ (w.ev p).length
  vis : ∀ p k, ofKey k (w.vis p) = outsAt c p k (w.wm p)

theorem boot_inv (sel : K → Bool) {vis : Nat → List (K × Nat)} {wm : Nat → Nat} (h : ∀ p k, ofKey k (vis p) = outsAt c p k (wm p)) : Inv c sel (boot c vis wm) where
  sr := ⟨[], rfl⟩
  evs := by intro p i y h; simp [boot] at h
  sch := by intro y h; simp [boot, Scheduler.init, scheds] at h
  qA := by intro p k _; simp [boot, Scheduler.init, scheds, sub, fk]
  qB := by intro p k _; simp [boot, fk]
  cA := by intro p k _; simp [boot, Scheduler.init, comps, sub, fk]
  jb := by intro p y h; simp [boot] at h
  due := by intro p e h; simp [boot] at h
  st := by
    intro p k
    simp only [boot, pk, List.filter_nil, List.flatMap_nil, List.foldl_nil]
    rw [h, stateAt_eq]
  com := by intro p; simp [boot]
  vis := by intro p k; simpa [boot, W.wm] using h p k

theorem outsAt_zero (p : Nat) (k : K) : outsAt c p k 0 = [] := by simp [outsAt_eq, valsOf, effects]

theorem Inv.caller (I : Inv c sel w) {p : Nat} {y : Job K} (h : y ∈ w.ev p) : y.caller = p ∧ y.id < w.next := by
  obtain ⟨i, hi, hg⟩ := List.getElem_of_mem h
  have := I.evs p i y (by rw [List.getElem?_eq_getElem hi, hg])
  exact ⟨this.1, this.2.1⟩

theorem Inv.evq_mem {sel : K → Bool} (I : Inv c sel w) {p : Nat} {y : Job K} (h : y ∈ w.evq p) : y ∈ w.ev p := by
  have hm : y ∈ fk y.key (w.evq p) := List.mem_filter.mpr ⟨h, by simp⟩
  have : y ∈ fk y.key (w.ev p) := by
    cases hs : sel y.key with
    | true => rw [← I.qA p y.key hs]; exact List.mem_append_right _ hm
    | false => rw [← I.qB p y.key hs]; exact List.mem_append_right _ hm
  exact (List.mem_filter.mp this).1

/-- The completed events of a key are the first ones. -/
theorem Inv.pre {sel : K → Bool} (I : Inv c sel w) (p : Nat) (k : K) : fk k ((w.prod p).map Prod.fst) <+: fk k (w.ev p) := by
  cases hs : sel k with
  | true =>
    have h1 : fk k ((w.prod p).map Prod.fst) <+: sub p k (comps w.sch.log) := by rw [← I.cA p k hs]; exact List.prefix_append _ _
    have h2 : sub p k (scheds w.sch.log) <+: fk k (w.ev p) := by rw [← I.qA p k hs]; exact List.prefix_append _ _
    exact h1.trans ((comps_prefix I.sr p k).trans h2)
  | false => rw [← I.qB p k hs]; exact List.prefix_append _ _

theorem Inv.prod_mem {sel : K → Bool} (I : Inv c sel w) {p : Nat} {e : Job K × List Nat} (h : e ∈ w.prod p) : e.1 ∈ w.ev p := by
  have : e.1 ∈ fk e.1.key ((w.prod p).map Prod.fst) := List.mem_filter.mpr ⟨List.mem_map.mpr ⟨e, h, rfl⟩, by simp⟩
  exact (List.mem_filter.mp ((I.pre p e.1.key).subset this)).1

theorem Inv.nodup {sel : K → Bool} (I : Inv c sel w) (p : Nat) : (w.ev p).Nodup := by
  rw [List.nodup_iff_getElem?_ne_getElem?]
  intro i j hij hj h
  have hi := I.evs p i ((w.ev p)[j]) (by rw [h, List.getElem?_eq_getElem hj])
  have hj' := I.evs p j ((w.ev p)[j]) (List.getElem?_eq_getElem hj)
  omega

/-- The records due for a stretch of events. -/
theorem Inv.outs_seg {sel : K → Bool} (I : Inv c sel w) (p : Nat) (k : K) (i : Nat) : ∀ m, i + m ≤ (w.ev p).length →
    outsAt c p k (w.base p + (i + m)) = outsAt c p k (w.base p + i) ++ (fk k (((w.ev p).drop i).take m)).flatMap fun y => dueAt c p (w.off y.id) := by
  intro m
  induction m with
  | zero => intro _; simp [fk]
  | succ m ih =>
    intro hm
    have hy : (w.ev p)[i + m]? = some ((w.ev p)[i + m]'(by omega)) := List.getElem?_eq_getElem _
    obtain ⟨-, -, ho, x, hx⟩ := I.evs p (i + m) _ hy
    have e1 : w.base p + (i + (m + 1)) = w.base p + (i + m) + 1 := by omega
    rw [e1, outsAt_succ hx, ih (by omega), List.take_add_one, List.getElem?_drop, hy, fk_append, List.flatMap_append, List.append_assoc]
    congr 2
    by_cases hk : ((w.ev p)[i + m]'(by omega)).key = k
    · rw [if_pos hk]; simp [fk, hk, ho]
    · rw [if_neg hk]; simp [fk, hk]

theorem split_unique {α : Type} {a b a' b' : List α} {y : α} (h : a ++ y :: b = a' ++ y :: b') (hn : (a ++ y :: b).Nodup) : a = a' := by
  induction a generalizing a' with
  | nil =>
    cases a' with
    | nil => rfl
    | cons z a' =>
      simp at h
      obtain ⟨rfl, rfl⟩ := h
      simp at hn
  | cons u a ih =>
    cases a' with
    | nil =>
      simp at h
      obtain ⟨rfl, rfl⟩ := h
      simp at hn
    | cons z a' =>
      simp at h
      obtain ⟨rfl, h⟩ := h
      rw [ih h (List.nodup_cons.mp hn).2]

theorem flatMap_congr_mem {α β : Type} {l : List α} {f g : α → List β} (h : ∀ x ∈ l, f x = g x) : l.flatMap f = l.flatMap g := by
  induction l with
  | nil => rfl
  | cons x l ih => rw [List.flatMap_cons, List.flatMap_cons, h x (by simp), ih fun y hy => h y (by simp [hy])]

/-- What was produced for completed events of a key is what is due for them. -/
theorem Inv.flat {sel : K → Bool} (I : Inv c sel w) (p : Nat) (l : List (Job K × List Nat)) (hl : ∀ e ∈ l, e ∈ w.prod p) :
    l.flatMap Prod.snd = (l.map Prod.fst).flatMap fun y => dueAt c p (w.off y.id) := by
  rw [List.flatMap_map]
  exact flatMap_congr_mem fun e he => I.due p e (hl e he)

/-- The next event of its key finds the store as after the events before it. -/
theorem Inv.ready {sel : K → Bool} (I : Inv c sel w) {p : Nat} {y : Job K} {rest : List (Job K)} (h : fk y.key ((w.prod p).map Prod.fst) ++ y :: rest = fk y.key (w.ev p)) :
    ∃ x, value c w y = some x ∧ w.st p y.key = stateAt c p y.key (w.off y.id) ∧ dueAt c p (w.off y.id) = c.app.handle (w.st p y.key) x ∧ y.caller = p := by
  have hy : y ∈ w.ev p := by
    have : y ∈ fk y.key (w.ev p) := by rw [← h]; simp
    exact (List.mem_filter.mp this).1
  obtain ⟨i, hi, hg⟩ := List.getElem_of_mem hy
  have hgi : (w.ev p)[i]? = some y := by rw [List.getElem?_eq_getElem hi, hg]
  obtain ⟨h1, h2, h3, x, hx⟩ := I.evs p i y hgi
  have hsplit : w.ev p = (w.ev p).take i ++ y :: (w.ev p).drop (i + 1) := by
    rw [← hg, ← List.drop_eq_getElem_cons hi, List.take_append_drop]
  have e2 : fk y.key (w.ev p) = fk y.key ((w.ev p).take i) ++ y :: fk y.key ((w.ev p).drop (i + 1)) := by
    conv => lhs; rw [hsplit]
    rw [fk_append]; simp [fk]
  have hn : (fk y.key (w.ev p)).Nodup := (I.nodup p).filter _
  have e3 : fk y.key ((w.prod p).map Prod.fst) = fk y.key ((w.ev p).take i) := by
    refine split_unique (b := rest) (b' := fk y.key ((w.ev p).drop (i + 1))) (y := y) (h.trans e2) ?_
    rw [h]; exact hn
  have e4 : w.st p y.key = stateAt c p y.key (w.off y.id) := by
    rw [I.st, stateAt_eq, stateAt_eq, h3]
    have := I.outs_seg p y.key 0 i (by omega)
    rw [Nat.zero_add, Nat.add_zero, List.drop_zero] at this
    rw [this, List.foldl_append, I.flat p (pk y.key (w.prod p)) (fun e he => (List.mem_filter.mp he).1), pk_fst, e3]
  refine ⟨x, ?_, e4, ?_, h1⟩
  · unfold value; rw [h1, h3, hx]; rfl
  · unfold dueAt; rw [e4, h3, hx]

end Verif.Keyed
