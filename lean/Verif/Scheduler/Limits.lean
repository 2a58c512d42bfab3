import Verif.Scheduler.History
/-
Bounds on the number of keys, and where the worker of every key is while the limit is never lowered.
-/
namespace Verif.Scheduler

set_option linter.unusedSectionVars false

variable {K : Type} [DecidableEq K]

theorem run_append {s s' s'' : State K} {a b : List (Label K)} (h1 : run s a = some s') (h2 : run s' b = some s'') : run s (a ++ b) = some s'' := by
  induction a generalizing s with
  | nil => simp only [run, Option.some.injEq] at h1; subst h1; exact h2
  | cons l a ih =>
    simp only [run, Option.bind_eq_some_iff] at h1
    obtain ⟨s1, e1, e2⟩ := h1
    simp only [List.cons_append, run, e1, Option.bind_some]
    exact ih e2

/-- The two invariants together. -/
def Good (s : State K) : Prop := Inv s.view ∧ Hist s.view

theorem good_pool {s : State K} (G : Inv s.view) :
    ∀ w ∈ s.pool, (s.wk w).queue.contents = [] ∧ (s.wk w).queue.size = 0 ∧ 1 ≤ (s.wk w).queue.cap := by
  intro w hw
  have hf : ∀ k, (k, w) ∉ s.view.map := fun k hk => G.mapPool k w hk hw
  exact ⟨(G.free w hf).1, (G.free w hf).2, G.capPos w⟩

theorem good_next {s s' : State K} {l : Label K} (G : Good s) (h : step s l = some s') : Good s' := by
  rcases step_view (good_pool G.1) h with h | h
  · unfold Good; rw [h]; exact G
  · exact ⟨inv_step (coh_view s) G.1 h, hist_step (coh_view s) G.1 G.2 h⟩

theorem good_run {s s' : State K} {ls : List (Label K)} (G : Good s) (h : run s ls = some s') : Good s' := by
  induction ls generalizing s with
  | nil => simp only [run, Option.some.injEq] at h; subst h; exact G
  | cons l ls ih =>
    simp only [run, Option.bind_eq_some_iff] at h
    obtain ⟨s1, e1, e2⟩ := h
    exact ih (good_next G e1) e2

theorem good_init (c : Config) : Good (init (K := K) c) := ⟨inv_init c, hist_init c⟩

theorem good_reach {c : Config} {s : State K} (h : Reach c s) : Good s := by
  obtain ⟨ls, h⟩ := h
  exact good_run (good_init c) h

/-! ### A step moves only one goroutine -/

/-- The goroutine a step belongs to (the numbers of the labels of `step`, async_scheduler.go:231-397). -/
def Label.thr : Label K → Option Nat
  | .call x => some x.caller
  | .lock t _ | .wake t | .put t | .cancel t | .send t | .eval t | .recv t | .exit t | .peek t | .finish t | .complete t | .release t | .signal t
  | .setMax t _ | .xfer t => some t
  | .setDepth _ | .close => none

theorem goto_other (s : State K) {t t' : Nat} (p : Phase K) (h : t' ≠ t) : (s.goto t p).threads t' = s.threads t' := upd_ne _ _ h

theorem step_other {s s' : State K} {l : Label K} (h : step s l = some s') {t : Nat} (ht : l.thr ≠ some t) : s'.threads t = s.threads t := by
  cases l with
  | setDepth n => simp only [step, Option.some.injEq] at h; subst h; rfl
  | close => simp only [step, Option.some.injEq] at h; subst h; rfl
  | _ =>
    simp only [Label.thr, ne_eq, Option.some.injEq] at ht
    have ht' := Ne.symm ht
    simp only [step] at h
    split at h
    all_goals first
      | (simp at h; done)
      | (simp only [Option.some.injEq] at h; subst h; exact goto_other _ _ ht')
      | (simp only [Option.map_eq_some_iff] at h; obtain ⟨q, _, rfl⟩ := h; exact goto_other _ _ ht')
      | (split at h
         · simp only [Option.some.injEq] at h; subst h; exact goto_other _ _ ht'
         · simp at h)
      | (split at h
         · simp at h
         · simp only [Option.some.injEq] at h; subst h; exact goto_other _ _ ht')
      | (unfold State.send at h; split at h
         · simp only [Option.some.injEq] at h; subst h; exact goto_other _ _ ht'
         · simp at h)
      | (unfold State.recv at h; split at h
         · simp only [Option.some.injEq] at h; subst h; exact goto_other _ _ ht'
         · split at h
           · simp only [Option.some.injEq] at h; subst h; exact goto_other _ _ ht'
           · simp at h)
      | (unfold State.lock at h; split at h
         · simp only [Option.some.injEq] at h; subst h; exact goto_other _ _ ht'
         · split at h
           · simp only [Option.some.injEq] at h; subst h; exact goto_other _ _ ht'
           · simp only [Option.map_eq_some_iff] at h
             obtain ⟨⟨s1, w⟩, hp, rfl⟩ := h
             unfold State.poolGet at hp
             split at hp
             · split at hp
               · simp only [Option.some.injEq, Prod.mk.injEq] at hp; obtain ⟨rfl, rfl⟩ := hp; exact goto_other _ _ ht'
               · simp at hp
             · simp only [Option.some.injEq, Prod.mk.injEq] at hp; obtain ⟨rfl, rfl⟩ := hp; exact goto_other _ _ ht')
      | (unfold State.setMax at h; split at h
         · split at h <;> simp only [Option.some.injEq] at h <;> subst h <;> first | rfl | exact goto_other _ _ ht'
         · simp at h)
      | (simp only [Option.some.injEq] at h; subst h; unfold State.peekStep; split
         · exact goto_other _ _ ht'
         · split <;> exact goto_other _ _ ht')
      | (simp only [Option.some.injEq] at h; subst h; unfold State.release; split <;> exact goto_other _ _ ht')
      | (simp only [Option.some.injEq] at h; subst h; unfold State.xferStep; split
         · split <;> exact goto_other _ _ ht'
         · exact goto_other _ _ ht')

theorem run_other {s s' : State K} {ls : List (Label K)} (h : run s ls = some s') {t : Nat} (ht : ∀ l ∈ ls, l.thr ≠ some t) :
    s'.threads t = s.threads t := by
  induction ls generalizing s with
  | nil => simp only [run, Option.some.injEq] at h; subst h; rfl
  | cons l ls ih =>
    simp only [run, Option.bind_eq_some_iff] at h
    obtain ⟨s1, e1, e2⟩ := h
    rw [ih e2 (fun l hl => ht l (List.mem_cons_of_mem _ hl)), step_other e1 (ht l (by simp))]

/-! ### The number of keys -/

/-- A step other than `setMax` keeps the limit, and the number of keys grows only below the limit. -/
theorem step_len {s s' : State K} {l : Label K} (G : Good s) (h : step s l = some s') :
    (s'.map.length ≤ s.map.length ∨ s'.map.length ≤ s.maxKeys) ∧ (s'.maxKeys = s.maxKeys ∨ ∃ t, l = .setMax t s'.maxKeys) := by
  constructor
  · rcases step_view (good_pool G.1) h with h | h
    · left; have : s'.view.map = s.view.map := by rw [h]
      simp only [State.view] at this; rw [this]; exact Nat.le_refl _
    · have hm : s'.map = s'.view.map := rfl
      rw [hm]
      generalize s'.view = v' at h
      cases h with
      | addNew t x w nw' pool' wk' h1 h2 h3 h4 => right; simp only [List.length_append, List.length_singleton]; exact h4
      | release t w h1 h2 h3 h4 => left; exact List.length_filter_le _ _
      | _ => left; exact Nat.le_refl _
  · cases l with
    | setMax t n =>
      simp only [step] at h
      split at h
      · unfold State.setMax at h
        split at h
        · split at h <;> simp only [Option.some.injEq] at h <;> subst h
          · right; exact ⟨t, rfl⟩
          · right; exact ⟨t, rfl⟩
        · simp at h
      · simp at h
    | _ =>
      left
      simp only [step] at h
      first
        | (simp only [Option.some.injEq] at h; subst h; rfl)
        | (split at h
           all_goals first
             | (simp at h; done)
             | (simp only [Option.some.injEq] at h; subst h; rfl)
             | (simp only [Option.map_eq_some_iff] at h; obtain ⟨q, _, rfl⟩ := h; rfl)
             | (split at h
                · simp only [Option.some.injEq] at h; subst h; rfl
                · simp at h)
             | (split at h
                · simp at h
                · simp only [Option.some.injEq] at h; subst h; rfl)
             | (unfold State.send at h; split at h
                · simp only [Option.some.injEq] at h; subst h; rfl
                · simp at h)
             | (unfold State.recv at h; split at h
                · simp only [Option.some.injEq] at h; subst h; rfl
                · split at h
                  · simp only [Option.some.injEq] at h; subst h; rfl
                  · simp at h)
             | (unfold State.lock at h; split at h
                · simp only [Option.some.injEq] at h; subst h; rfl
                · split at h
                  · simp only [Option.some.injEq] at h; subst h; rfl
                  · simp only [Option.map_eq_some_iff] at h
                    obtain ⟨⟨s1, w⟩, hp, rfl⟩ := h
                    unfold State.poolGet at hp
                    split at hp
                    · split at hp
                      · simp only [Option.some.injEq, Prod.mk.injEq] at hp; obtain ⟨rfl, rfl⟩ := hp; rfl
                      · simp at hp
                    · simp only [Option.some.injEq, Prod.mk.injEq] at hp; obtain ⟨rfl, rfl⟩ := hp; rfl)
             | (simp only [Option.some.injEq] at h; subst h; unfold State.peekStep; split
                · rfl
                · split <;> rfl)
             | (simp only [Option.some.injEq] at h; subst h; unfold State.release; split <;> rfl)
             | (simp only [Option.some.injEq] at h; subst h; unfold State.xferStep; split
                · split <;> rfl
                · rfl))

theorem len_run {B : Nat} {s s' : State K} {ls : List (Label K)} (G : Good s) (h1 : s.map.length ≤ B) (h2 : s.maxKeys ≤ B)
    (hl : ∀ t n, Label.setMax t n ∈ ls → n ≤ B) (h : run s ls = some s') : s'.map.length ≤ B ∧ s'.maxKeys ≤ B := by
  induction ls generalizing s with
  | nil => simp only [run, Option.some.injEq] at h; subst h; exact ⟨h1, h2⟩
  | cons l ls ih =>
    simp only [run, Option.bind_eq_some_iff] at h
    obtain ⟨s1, e1, e2⟩ := h
    obtain ⟨a, b⟩ := step_len G e1
    refine ih (good_next G e1) (by omega) ?_ (fun t n hm => hl t n (List.mem_cons_of_mem _ hm)) e2
    rcases b with b | ⟨t, b⟩
    · omega
    · exact hl t _ (by rw [b]; simp)

/-! ### Workers are not forgotten while the limit only grows -/

/-- A run in which `SetMaxConcurrentKeys` never lowers the limit. -/
def Grows (s : State K) : List (Label K) → Prop
  | [] => True
  | l :: ls => (∀ t n, l = .setMax t n → s.maxKeys ≤ n) ∧ ∀ s', step s l = some s' → Grows s' ls

/-- Where the worker of every key is. -/
structure Kept (v : View K) : Prop where
  len : v.map.length ≤ v.maxKeys
  somewhere : ∀ k w, (k, w) ∈ v.map → (∃ t, v.hold t = some w) ∨ w ∈ v.chans v.cur ∨ (v.rw = true ∧ w ∈ v.chans (v.cur + 1))
  old : ∀ r, r < v.cur → v.chans r = []
  far : ∀ r, v.cur + 1 < r → v.chans r = []
  next : v.rw = false → v.chans (v.cur + 1) = []
  noxf : v.rw = false → ∀ t, v.xf t = none
  onexf : ∀ t t' a b, v.xf t = some a → v.xf t' = some b → t = t'
  room : ∀ t n i, v.xf t = some (n, i) → i + (v.chans v.cur).length ≤ n ∧ n = v.maxKeys ∧ v.caps (v.cur + 1) = n + 1
  caps : v.rw = false → v.caps v.cur = v.maxKeys + 1
  hasxf : v.rw = true → ∃ t n i, v.xf t = some (n, i)

/-- A list of distinct workers that all own keys is not longer than the map. -/
theorem tokens_le {v : View K} {l : List Nat} (hn : l.Nodup) (hl : ∀ w ∈ l, ∃ k, (k, w) ∈ v.map) : l.length ≤ v.map.length := by
  have hsub : l ⊆ v.map.map Prod.snd := by
    intro w hw; obtain ⟨k, hk⟩ := hl w hw
    exact List.mem_map.2 ⟨(k, w), hk, rfl⟩
  have := hn.length_le_of_subset hsub
  simpa using this

theorem kept_init (c : Config) : Kept (init (K := K) c).view := by
  have xf : ∀ t, (init (K := K) c).view.xf t = none := by intro t; simp only [State.view, init]; split <;> rfl
  constructor
  case noxf => intro _ t; exact xf t
  case onexf => intro t t' a b h; rw [xf] at h; simp at h
  case room => intro t n i h; rw [xf] at h; simp at h
  all_goals simp [State.view, init]

theorem kept_step {v v' : View K} (I : Inv v) (N : Kept v) (h : VStep v v') (hmax : v.maxKeys ≤ v'.maxKeys) : Kept v' := by
  cases h with
  | call x h0 h1 h2 => exact { N with }
  | drop t x h0 h1 => exact { N with }
  | addOld t x w q h1 h2 h3 h4 => exact { N with }
  | blockOld t x w q h1 h2 h3 h4 => exact { N with }
  | addNew t x w nw' pool' wk' h1 h2 h3 h4 h5 h6 h7 h8 h9 h10 h11 h12 =>
    exact { N with
      len := by simp only [List.length_append, List.length_singleton]; exact h4
      somewhere := by
        intro k u hk
        simp only [List.mem_append, List.mem_singleton, Prod.mk.injEq] at hk
        rcases hk with hk | ⟨_, rfl⟩
        · rcases N.somewhere k u hk with ⟨t', ht'⟩ | h | h
          · left; refine ⟨t', ?_⟩
            have : t' ≠ t := by rintro rfl; rw [h11] at ht'; simp at ht'
            simp only [upd_ne _ _ this]; exact ht'
          · exact Or.inr (Or.inl h)
          · exact Or.inr (Or.inr h)
        · left; exact ⟨t, by simp⟩ }
  | put t x w q h1 h2 h4 => exact { N with }
  | send t w h1 h2 h3 h4 h5 =>
    have hc : ∀ r, r ≠ v.cur → upd v.chans v.cur (v.chans v.cur ++ [w]) r = v.chans r := fun r hr => upd_ne _ _ hr
    exact { N with
      somewhere := by
        intro k u hk
        by_cases e : u = w
        · subst e; right; left; simp
        · rcases N.somewhere k u hk with ⟨t', ht'⟩ | h | h
          · left; refine ⟨t', ?_⟩
            have : t' ≠ t := by rintro rfl; rw [h1] at ht'; simp at ht'; exact e ht'.symm
            simp only [upd_ne _ _ this]; exact ht'
          · right; left; simp [h]
          · simp [h4] at h
      old := by intro r hr; simp only [] at hr; simp only [hc r (by omega)]; exact N.old r hr
      far := by intro r hr; simp only [] at hr; simp only [hc r (by omega)]; exact N.far r hr
      next := by intro hr; simp only [hc (v.cur + 1) (by omega)]; exact N.next hr
      room := by intro t n i h; rw [N.noxf h4] at h; simp at h }
  | recv t r w rest h1 h2 =>
    have hr : r = v.cur ∨ r = v.cur + 1 := by
      by_contra hne
      by_cases hlt : r < v.cur
      · rw [N.old r hlt] at h2; simp at h2
      · rw [N.far r (by omega)] at h2; simp at h2
    have hsub : ∀ r', (upd v.chans r rest) r' = [] ∨ v.chans r' ≠ [] := by
      intro r'; by_cases e : v.chans r' = []
      · left; by_cases e' : r' = r
        · subst e'; rw [h2] at e; simp at e
        · rw [upd_ne _ _ e']; exact e
      · right; exact e
    have hmem : ∀ u r', u ≠ w → u ∈ v.chans r' → u ∈ upd v.chans r rest r' := by
      intro u r' hu hm
      by_cases e' : r' = r
      · subst e'; rw [h2] at hm; simp only [List.mem_cons, hu, false_or] at hm; simpa using hm
      · rw [upd_ne _ _ e']; exact hm
    exact { N with
      somewhere := by
        intro k u hk
        by_cases e : u = w
        · left; exact ⟨t, by simp [e]⟩
        · rcases N.somewhere k u hk with ⟨t', ht'⟩ | h | h
          · left; refine ⟨t', ?_⟩
            have : t' ≠ t := by rintro rfl; rw [h1] at ht'; simp at ht'
            simp only [upd_ne _ _ this]; exact ht'
          · right; left; exact hmem u _ e h
          · right; right; exact ⟨h.1, hmem u _ e h.2⟩
      old := by intro r' hr'; rcases hsub r' with h | h; exact h; exact absurd (N.old r' hr') h
      far := by intro r' hr'; rcases hsub r' with h | h; exact h; exact absurd (N.far r' hr') h
      next := by intro hr'; rcases hsub (v.cur + 1) with h | h; exact h; exact absurd (N.next hr') h
      room := by
        intro t' n i h
        obtain ⟨a, b, c⟩ := N.room t' n i h
        refine ⟨?_, b, c⟩
        simp only [upd]; split
        · rename_i e; rw [e, h2] at a; simp only [List.length_cons] at a; omega
        · exact a }
  | start t w x h0 h1 h2 h3 h4 => exact { N with }
  | finish t w x h1 h2 => exact { N with }
  | complete t w x h1 h2 => exact { N with }
  | release t w h1 h2 h3 h4 =>
    exact { N with
      len := Nat.le_trans (List.length_filter_le _ _) N.len
      somewhere := by
        intro k u hk
        simp only [List.mem_filter, decide_eq_true_eq, ne_eq] at hk
        have e : u ≠ w := by rintro rfl; exact hk.2 (I.mapKey _ _ hk.1).symm
        rcases N.somewhere k u hk.1 with ⟨t', ht'⟩ | h | h
        · left; refine ⟨t', ?_⟩
          have : t' ≠ t := by rintro rfl; rw [h1] at ht'; simp at ht'; exact e ht'.symm
          simp only [upd_ne _ _ this]; exact ht'
        · exact Or.inr (Or.inl h)
        · exact Or.inr (Or.inr h) }
  | setMax n h1 =>
    simp only at hmax
    have e : n = v.maxKeys := by omega
    subst e
    exact { N with }
  | grow t n h1 h2 h3 =>
    have hlen : (v.chans v.cur).length ≤ v.map.length := tokens_le (I.chanNodup _) (fun w hw => I.tokMap w (.ch v.cur) hw)
    have hc : upd v.chans (v.cur + 1) [] = v.chans := upd_same _ _ _ (N.next h2)
    constructor
    case len => have := N.len; simp only; omega
    case somewhere =>
      intro k u hk
      rcases N.somewhere k u hk with h | h | h
      · exact Or.inl h
      · right; left; simp only [hc]; exact h
      · simp [h2] at h
    case old => intro r hr; simp only [hc]; exact N.old r hr
    case far => intro r hr; simp only [hc]; exact N.far r hr
    case next => intro h; simp at h
    case noxf => intro h; simp at h
    case onexf =>
      intro t1 t2 a b ha hb
      have h1 : t1 = t := by
        by_contra hne; simp only [upd_ne _ _ hne] at ha; rw [N.noxf h2] at ha; simp at ha
      have h2' : t2 = t := by
        by_contra hne; simp only [upd_ne _ _ hne] at hb; rw [N.noxf h2] at hb; simp at hb
      rw [h1, h2']
    case room =>
      intro t1 n1 i1 ha
      have e : t1 = t := by
        by_contra hne; simp only [upd_ne _ _ hne] at ha; rw [N.noxf h2] at ha; simp at ha
      subst e
      simp only [upd_self, Option.some.injEq, Prod.mk.injEq] at ha
      obtain ⟨rfl, rfl⟩ := ha
      refine ⟨?_, rfl, by simp⟩
      simp only [hc]
      have := N.len
      omega
    case caps => intro h; simp at h
    case hasxf => intro _; exact ⟨t, n, 0, by simp⟩
  | xfer t n i w rest h1 h2 h3 =>
    have hrw : v.rw = true := by
      cases h : v.rw
      · rw [N.noxf h] at h1; simp at h1
      · rfl
    have hcc : upd (upd v.chans v.cur rest) (v.cur + 1) (v.chans (v.cur + 1) ++ [w]) v.cur = rest := by
      rw [upd_ne _ _ (by omega), upd_self]
    have hcn : upd (upd v.chans v.cur rest) (v.cur + 1) (v.chans (v.cur + 1) ++ [w]) (v.cur + 1) = v.chans (v.cur + 1) ++ [w] := by
      rw [upd_self]
    constructor
    case len => exact N.len
    case somewhere =>
      intro k u hk
      simp only [hcc, hcn]
      rcases N.somewhere k u hk with h | h | h
      · exact Or.inl h
      · rw [h3] at h
        simp only [List.mem_cons] at h
        rcases h with rfl | h
        · right; right; exact ⟨hrw, by simp⟩
        · right; left; exact h
      · right; right; exact ⟨hrw, by simp [h.2]⟩
    case old =>
      intro r hr
      simp only at hr
      simp only [upd_ne _ _ (show r ≠ v.cur + 1 by omega), upd_ne _ _ (show r ≠ v.cur by omega)]; exact N.old r hr
    case far =>
      intro r hr
      simp only at hr
      simp only [upd_ne _ _ (show r ≠ v.cur + 1 by omega), upd_ne _ _ (show r ≠ v.cur by omega)]; exact N.far r hr
    case next => intro h; simp [hrw] at h
    case noxf => intro h; simp [hrw] at h
    case onexf =>
      intro t1 t2 a b ha hb
      have e1 : t1 = t := by
        by_contra hne; simp only [upd_ne _ _ hne] at ha; exact hne (N.onexf _ _ _ _ ha h1)
      have e2 : t2 = t := by
        by_contra hne; simp only [upd_ne _ _ hne] at hb; exact hne (N.onexf _ _ _ _ hb h1)
      rw [e1, e2]
    case room =>
      intro t1 n1 i1 ha
      have e1 : t1 = t := by
        by_contra hne; simp only [upd_ne _ _ hne] at ha; exact hne (N.onexf _ _ _ _ ha h1)
      subst e1
      simp only [upd_self, Option.some.injEq, Prod.mk.injEq] at ha
      obtain ⟨rfl, rfl⟩ := ha
      obtain ⟨a, b, c⟩ := N.room _ _ _ h1
      rw [h3] at a
      simp only [List.length_cons] at a
      refine ⟨?_, b, c⟩
      simp only [hcc]; omega
    case caps => intro h; simp [hrw] at h
    case hasxf => intro _; exact ⟨t, n, i + 1, by simp⟩
  | publish t n i h1 h2 =>
    have hrw : v.rw = true := by
      cases h : v.rw
      · rw [N.noxf h] at h1; simp at h1
      · rfl
    obtain ⟨a, b, c⟩ := N.room _ _ _ h1
    have hemp : v.chans v.cur = [] := by
      rcases h2 with h2 | h2
      · rw [← List.length_eq_zero_iff]; omega
      · exact h2
    have hxf : ∀ t', upd v.xf t none t' = none := by
      intro t'
      by_cases e : t' = t
      · subst e; simp
      · rw [upd_ne _ _ e]
        cases hx : v.xf t' with
        | none => rfl
        | some y => exact absurd (N.onexf _ _ _ _ hx h1) e
    constructor
    case len => exact N.len
    case somewhere =>
      intro k u hk
      rcases N.somewhere k u hk with h | h | h
      · exact Or.inl h
      · rw [hemp] at h; simp at h
      · right; left; exact h.2
    case old =>
      intro r hr
      simp only at hr
      by_cases e : r = v.cur
      · subst e; exact hemp
      · exact N.old r (by omega)
    case far => intro r hr; simp only at hr; exact N.far r (by omega)
    case next => intro _; exact N.far _ (by simp only; omega)
    case noxf => intro _ t'; exact hxf t'
    case onexf => intro t1 t2 x y hx; simp only at hx; rw [hxf] at hx; simp at hx
    case room => intro t1 n1 i1 hx; simp only at hx; rw [hxf] at hx; simp at hx
    case caps => intro _; simp only [c, b]
    case hasxf => intro h; simp at h
  | close => exact { N with }

theorem kept_next {s s' : State K} {l : Label K} (G : Good s) (N : Kept s.view) (h : step s l = some s')
    (hl : ∀ t n, l = .setMax t n → s.maxKeys ≤ n) : Kept s'.view := by
  have hmax : s.maxKeys ≤ s'.maxKeys := by
    rcases (step_len G h).2 with e | ⟨t, e⟩
    · omega
    · exact hl t _ e
  rcases step_view (good_pool G.1) h with h | h
  · rw [h]; exact N
  · exact kept_step G.1 N h hmax

theorem kept_run {s s' : State K} {ls : List (Label K)} (G : Good s) (N : Kept s.view) (hg : Grows s ls) (h : run s ls = some s') : Kept s'.view := by
  induction ls generalizing s with
  | nil => simp only [run, Option.some.injEq] at h; subst h; exact N
  | cons l ls ih =>
    simp only [run, Option.bind_eq_some_iff] at h
    obtain ⟨s1, e1, e2⟩ := h
    exact ih (good_next G e1) (kept_next G N e1 hg.1) (hg.2 s1 e1) e2

end Verif.Scheduler
