import Verif.Batches.Spec
import Verif.Props.Batcher
import Verif.Keyed.Store
import Mathlib.Data.List.Induction
/-
Proofs for C114: what the worker and the batcher have of the events.
-/
namespace Verif.Batches
open Verif.Scheduler (Job sub upd)
open Verif.Batcher (Item Batch AddedBefore)
open Verif.Keyed (fk fk_append upd_self upd_other fk_cons fk_one split_unique sub_fk)

set_option linter.unusedSectionVars false

variable {K σ X : Type} [DecidableEq K] {c : Cfg K σ X} {w w' : W K σ} {H H' : Nat → List (Job K)}

/-! ### The batcher -/

theorem noncall {s s' : Batcher.State K} {l : Batcher.Label K} (hl : ∀ t b, l ≠ .call t b) (h : Batcher.step s l = some s') :
    s'.batches = s.batches ∧ ((s'.added = s.added ∧ s'.adders = s.adders) ∨
      ∃ t x r, s.adders t = x :: r ∧ s'.added = s.added ++ [x] ∧ s'.adders = Batcher.upd s.adders t r) := by
  cases l with
  | call t b => exact absurd rfl (hl t b)
  | add t =>
    simp only [Batcher.step] at h
    split at h
    · cases h
    · rename_i x r hx
      simp only [Option.some.injEq] at h
      subst h
      obtain ⟨h1, h2, -, h4, -⟩ := Batcher.addOne_fields { s with adders := Batcher.upd s.adders t r } x
      exact ⟨h2, .inr ⟨t, x, r, hx, h4, h1⟩⟩
  | fire i =>
    simp only [Batcher.step] at h
    split at h
    · simp only [Option.some.injEq] at h; subst h; exact ⟨rfl, .inl ⟨rfl, rfl⟩⟩
    · cases h
  | flush i =>
    simp only [Batcher.step] at h
    split at h
    · cases h
    · rename_i m hm
      simp only [Option.some.injEq] at h
      have := Batcher.same_condExec (s.setE i { s.execs i with late := m }) i
      rw [h] at this
      exact ⟨this.batches, .inl ⟨this.added, this.adders⟩⟩
  | go i j =>
    simp only [Batcher.step, Option.map_eq_some_iff] at h
    obtain ⟨p, hp, hs⟩ := h
    cases p with
    | queued => simp only [Batcher.goStep] at hs; split at hs <;> subst hs <;> exact ⟨rfl, .inl ⟨rfl, rfl⟩⟩
    | running => simp only [Batcher.goStep] at hs; subst hs; exact ⟨rfl, .inl ⟨rfl, rfl⟩⟩
    | completing r => cases r <;> simp only [Batcher.goStep] at hs <;> subst hs <;> exact ⟨rfl, .inl ⟨rfl, rfl⟩⟩
    | nooping r =>
      cases r with
      | nil =>
        simp only [Batcher.goStep] at hs
        have := Batcher.same_finish s i j
        rw [hs] at this
        exact ⟨this.batches, .inl ⟨this.added, this.adders⟩⟩
      | cons x r => simp only [Batcher.goStep] at hs; subst hs; exact ⟨rfl, .inl ⟨rfl, rfl⟩⟩

theorem reach_more {max n : Nat} {s s' : Batcher.State K} {l : Batcher.Label K} (h : Batcher.Reach max n s) (hs : Batcher.step s l = some s') : Batcher.Reach max n s' := by
  obtain ⟨ls, hls⟩ := h
  exact ⟨ls ++ [l], Batcher.run_append hls (by simp [Batcher.run, hs])⟩

theorem before_more {s s' : Batcher.State K} (h : s.added <+: s'.added) {A B : Batch K} (hb : AddedBefore s A B) : AddedBefore s' A B := by
  obtain ⟨t, ht⟩ := h
  obtain ⟨u, v, h1, h2, h3⟩ := hb
  exact ⟨u, v ++ t, by rw [← ht, h1, List.append_assoc], h2, h3⟩

/-- A list that has, with each element, all elements that come before it in another list, is the beginning of that. -/
theorem prefix_of_closed {α : Type} {L M : List α} (hL : L.Nodup) (hM : M.Nodup) (hs : ∀ y ∈ L, y ∈ M)
    (h : ∀ c1 b c2, L = c1 ++ b :: c2 → ∀ m1 m2, M = m1 ++ b :: m2 → ∀ a ∈ m1, a ∈ c1) : L <+: M := by
  induction L using List.reverseRecOn with
  | nil => exact List.nil_prefix
  | append_singleton L b ih =>
    obtain ⟨t, ht⟩ := ih (List.nodup_append.mp hL).1 (fun y hy => hs y (by simp [hy]))
      (fun c1 b' c2 e m1 m2 e' => h c1 b' (c2 ++ [b]) (by rw [e]; simp) m1 m2 e')
    have hb : b ∈ t := by
      have := hs b (by simp)
      rw [← ht, List.mem_append] at this
      rcases this with hb | hb
      · exact absurd rfl ((List.nodup_append.mp hL).2.2 b hb b (by simp))
      · exact hb
    obtain ⟨t1, t2, rfl⟩ := List.append_of_mem hb
    have hall := h L b [] rfl (L ++ t1) t2 (by rw [← ht]; simp)
    have : t1 = [] := by
      cases t1 with
      | nil => rfl
      | cons z t1 =>
        have hz := hall z (by simp)
        rw [← ht, List.nodup_append] at hM
        exact absurd rfl (hM.2.2 z hz z (by simp))
    subst this
    exact ⟨t2, by rw [← ht]; simp⟩

/-! ### The events -/

/-- The items that are added for an event. -/
def its (c : Cfg K σ X) (w : W K σ) (y : Job K) : List (Item K) :=
  match value c w y with
  | some x => (batchOf c y x).itemsToAdd
  | none => []

/-- The items of a partition. -/
def mine (w : W K σ) (p : Nat) (x : Item K) : Bool := decide ((w.evt x.batch).map Job.caller = some p)

/-- `H p`: the events of the partition that were given to the batcher. -/
structure Base (c : Cfg K σ X) (H : Nat → List (Job K)) (w : W K σ) : Prop where
  br : Batcher.Reach c.maxSize c.conc w.bat
  evs : ∀ p i y, (w.ev p)[i]? = some y → y.caller = p ∧ y.id < w.next ∧ w.off y.id = w.base p + i ∧ w.evt y.id = some y ∧ ∃ x, (c.src p)[w.base p + i]? = some (y.key, x)
  hq : ∀ p, H p ++ w.evq p = w.ev p
  tev : ∀ i y, w.evt i = some y → y.id = i ∧ i < w.next
  bat : ∀ p, ∀ y ∈ H p, ∃ x, value c w y = some x ∧ w.bat.batches y.id = some (batchOf c y x)
  bat' : ∀ b B, w.bat.batches b = some B → ∃ p, ∃ y ∈ H p, y.id = b
  ad : ∀ t, ∀ x ∈ w.bat.adders t, ∃ y ∈ H t, y.id = x.batch
  pw : ∀ p, (H p).Pairwise fun y z => ∀ x x', value c w y = some x → value c w z = some x' → AddedBefore w.bat (batchOf c y x) (batchOf c z x')
  it : ∀ p, w.bat.added.filter (mine w p) ++ w.bat.adders p = (H p).flatMap (its c w)
  cA : ∀ p k, fk k ((w.prod p).map Prod.fst) ++ fk k (w.jobs p) = sub p k (w.bat.called.filterMap w.evt)
  jb : ∀ p, ∀ y ∈ w.jobs p, y.caller = p
  com : ∀ p, w.com p ≤ (w.ev p).length
  don : ∀ p, ∀ y ∈ (w.ev p).take (w.com p), y ∈ (w.prod p).map Prod.fst

theorem boot_base (c : Cfg K σ X) (vis : Nat → List (K × Nat)) (wm : Nat → Nat) : Base c (fun _ => []) (boot c vis wm) where
  br := ⟨[], rfl⟩
  evs := by intro p i y h; simp [boot] at h
  hq := by intro p; simp [boot]
  tev := by intro i y h; simp [boot] at h
  bat := by intro p y h; simp at h
  bat' := by intro b B h; simp [boot, Batcher.init] at h
  ad := by intro t x h; simp [boot, Batcher.init] at h
  pw := by intro p; simp
  it := by intro p; simp [boot, Batcher.init]
  cA := by intro p k; simp [boot, Batcher.init, sub, fk]
  jb := by intro p y h; simp [boot] at h
  com := by intro p; simp [boot]
  don := by intro p y h; simp [boot] at h

theorem Base.ev_mem (B : Base c H w) {p : Nat} {y : Job K} (h : y ∈ w.ev p) : y.caller = p ∧ y.id < w.next ∧ w.evt y.id = some y ∧ ∃ x, value c w y = some x := by
  obtain ⟨i, hi, hg⟩ := List.getElem_of_mem h
  obtain ⟨h1, h2, h3, h4, x, hx⟩ := B.evs p i y (by rw [List.getElem?_eq_getElem hi, hg])
  exact ⟨h1, h2, h4, x, by unfold value; rw [h1, h3, hx]; rfl⟩

theorem Base.H_ev (B : Base c H w) {p : Nat} {y : Job K} (h : y ∈ H p) : y ∈ w.ev p := by rw [← B.hq p]; exact List.mem_append_left _ h

theorem Base.nodup (B : Base c H w) (p : Nat) : (w.ev p).Nodup := by
  rw [List.nodup_iff_getElem?_ne_getElem?]
  intro i j hij hj h
  have hi := B.evs p i ((w.ev p)[j]) (by rw [h, List.getElem?_eq_getElem hj])
  have hj' := B.evs p j ((w.ev p)[j]) (List.getElem?_eq_getElem hj)
  omega

theorem Base.nodupH (B : Base c H w) (p : Nat) : (H p).Nodup := (B.nodup p).sublist (by rw [← B.hq p]; exact List.sublist_append_left _ _)

/-- Two events are the same when they have the same number. -/
theorem Base.same (B : Base c H w) {p q : Nat} {y z : Job K} (hy : y ∈ w.ev p) (hz : z ∈ w.ev q) (h : y.id = z.id) : y = z := by
  have h1 := (B.ev_mem hy).2.2.1
  have h2 := (B.ev_mem hz).2.2.1
  rw [h, h2] at h1
  cases h1; rfl

/-- The callbacks are those of events that were given to the batcher. -/
theorem Base.called_H (hm : 1 ≤ c.maxSize) (B : Base c H w) {b : Nat} (h : b ∈ w.bat.called) : ∃ p, ∃ y ∈ H p, y.id = b ∧ w.evt b = some y ∧ y.caller = p := by
  obtain ⟨Bt, h1, -⟩ := ((Batcher.full_reach hm B.br).acc.callback b).1 h
  obtain ⟨p, y, hy, rfl⟩ := B.bat' b Bt h1
  have := B.ev_mem (B.H_ev hy)
  exact ⟨p, y, hy, rfl, this.2.2.1, this.1⟩

theorem filterMap_nodup {α β : Type} {f : α → Option β} {l : List α} (hn : l.Nodup) (hf : ∀ a b y, f a = some y → f b = some y → a = b) : (l.filterMap f).Nodup :=
  hn.filterMap fun a b y h1 h2 => hf a b y h1 h2

/-- Earlier events have earlier offsets. -/
theorem Base.offs (B : Base c H w) (p : Nat) : (w.ev p).Pairwise fun y z => w.off y.id < w.off z.id := by
  rw [List.pairwise_iff_getElem]
  intro i j hi hj hij
  have h1 := (B.evs p i _ (List.getElem?_eq_getElem hi)).2.2.1
  have h2 := (B.evs p j _ (List.getElem?_eq_getElem hj)).2.2.1
  omega

theorem batchOf_keys {y : Job K} {x : X} {i : Item K} (h : i ∈ (batchOf c y x).itemsToAdd) : i.key = y.key := by
  unfold batchOf Batch.itemsToAdd at h
  simp only at h
  split at h
  · simp at h; rw [h]
  · rw [List.mem_mapIdx] at h
    obtain ⟨n, hn, rfl⟩ := h
    simp

/-- For a key, the callbacks come in the order of the events. -/
theorem Base.pre (hm : 1 ≤ c.maxSize) (hx : NoMix c) (B : Base c H w) (p : Nat) (k : K) : sub p k (w.bat.called.filterMap w.evt) <+: fk k (H p) := by
  have A := (Batcher.full_reach hm B.br).acc
  have inj : ∀ a b y, w.evt a = some y → w.evt b = some y → a = b := fun a b y h1 h2 => by rw [← (B.tev a y h1).1, ← (B.tev b y h2).1]
  have hn : (sub p k (w.bat.called.filterMap w.evt)).Nodup := (filterMap_nodup A.once inj).filter _
  have memL : ∀ y, y ∈ sub p k (w.bat.called.filterMap w.evt) → y ∈ fk k (H p) ∧ y.id ∈ w.bat.called := by
    intro y hy
    obtain ⟨hy1, hy2⟩ := List.mem_filter.mp hy
    obtain ⟨b, hb, he⟩ := List.mem_filterMap.mp hy1
    obtain ⟨q, z, hz, hzb, hze, hzq⟩ := B.called_H hm hb
    rw [he] at hze
    cases hze
    simp only [decide_eq_true_eq] at hy2
    rw [hy2.1] at hzq
    subst hzq
    exact ⟨List.mem_filter.mpr ⟨hz, by simp [hy2.2]⟩, by rw [hzb]; exact hb⟩
  refine prefix_of_closed hn ((B.nodupH p).filter _) (fun y hy => (memL y hy).1) ?_
  intro c1 b c2 e m1 m2 e' a ha
  have hbL : b ∈ sub p k (w.bat.called.filterMap w.evt) := by rw [e]; simp
  obtain ⟨hbH, hbc⟩ := memL b hbL
  obtain ⟨hbH1, hbk⟩ := List.mem_filter.mp hbH
  have haH : a ∈ fk k (H p) := by rw [e']; simp [ha]
  obtain ⟨haH1, hak⟩ := List.mem_filter.mp haH
  have hbk' : b.key = k := by simpa using hbk
  have hak' : a.key = k := by simpa using hak
  -- `a` was added before `b`
  have hsl : [a, b].Sublist (H p) := by
    have h1 : [a, b].Sublist (m1 ++ b :: m2) := by
      have : [a, b] = [a] ++ [b] := rfl
      rw [this]
      exact (List.singleton_sublist.2 ha).append (List.singleton_sublist.2 (by simp))
    rw [← e'] at h1
    exact h1.trans List.filter_sublist
  obtain ⟨xa, hva, hba⟩ := B.bat p a haH1
  obtain ⟨xb, hvb, hbb⟩ := B.bat p b hbH1
  have hpw : AddedBefore w.bat (batchOf c a xa) (batchOf c b xb) := by
    have := (B.pw p).sublist hsl
    simp only [List.pairwise_cons, List.mem_singleton, forall_eq] at this
    exact this.1 xa xb hva hvb
  have hoff : w.off a.id < w.off b.id := by
    have := (B.offs p).sublist (hsl.trans (by rw [← B.hq p]; exact List.sublist_append_left _ _))
    simp only [List.pairwise_cons, List.mem_singleton, forall_eq] at this
    exact this.1
  have hsrc : ∀ {y : Job K} {x : X}, y ∈ H p → value c w y = some x → (c.src p)[w.off y.id]? = some (y.key, x) := by
    intro y x hy hv
    obtain ⟨i, hi, hg⟩ := List.getElem_of_mem (B.H_ev hy)
    obtain ⟨h1, -, h3, -, x', hx'⟩ := B.evs p i y (by rw [List.getElem?_eq_getElem hi, hg])
    unfold value at hv
    rw [h1, h3, hx'] at hv
    cases hv
    rw [h3]; exact hx'
  have hmix : c.parts a.key xa = 0 → c.parts b.key xb = 0 := by
    intro h0
    have h1 := hsrc haH1 hva
    have h2 := hsrc hbH1 hvb
    rw [hak'] at h1 h0
    rw [hbk'] at h2 ⊢
    exact hx p _ _ k xa xb hoff h1 h2 h0
  obtain ⟨d1, d2, hd⟩ := List.append_of_mem hbc
  have := Batcher.C26_order_partial hm B.br (A := batchOf c a xa) (B := batchOf c b xb) (k := k) hba hbb (fun i hi => by rw [batchOf_keys hi, hak'])
    (fun i hi => by rw [batchOf_keys hi, hbk']) (by
      intro h0
      have h0' : c.parts a.key xa = 0 := by simpa [batchOf] using h0
      simp [batchOf, hmix h0']) hpw (c1 := d1) (c2 := d2) hd
  have hae := (B.ev_mem (B.H_ev haH1))
  have hbe := (B.ev_mem (B.H_ev hbH1))
  have hsp : sub p k (w.bat.called.filterMap w.evt) = sub p k (d1.filterMap w.evt) ++ b :: sub p k (d2.filterMap w.evt) := by
    rw [hd, List.filterMap_append, List.filterMap_cons, hbe.2.2.1, Scheduler.sub_append]
    congr 1
    simp [sub, hbe.1, hbk']
  have hc1 : c1 = sub p k (d1.filterMap w.evt) := by
    refine split_unique (e.symm.trans hsp) ?_
    rw [← e]; exact hn
  rw [hc1]
  exact List.mem_filter.mpr ⟨List.mem_filterMap.mpr ⟨a.id, this, hae.2.2.1⟩, by simp [hae.1, hak']⟩

end Verif.Batches
