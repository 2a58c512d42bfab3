import Verif.Whole.Link
import Mathlib.Data.List.Induction
/-
The calls between workers and pool meet: every completion is accepted, every event is finalized once, the transactions that a worker waits for are
those that have its partition through one of its events.
-/
set_option linter.unusedSimpArgs false
namespace Verif.Whole
open Verif.Eos (Ev Pool)
open Verif.Effects (Inc)
open Verif.Worker (PW It)

variable {c : Eos.Cfg} {ecap : Nat} {src : Nat → List Nat} {w w' : Group}

/-! ### First events -/

theorem rootEvs_snoc (l : List Ev) (e : Ev) :
    rootEvs (l ++ [e]) = if (rootEvs l).any fun d => d.part = e.part then rootEvs l else rootEvs l ++ [e] := by
  unfold rootEvs; rw [List.foldl_append]; rfl

theorem rootEvs_any (l : List Ev) (tp : Nat) : ((rootEvs l).any fun d => d.part = tp) = l.any fun d => d.part = tp := by
  induction l using List.reverseRecOn with
  | nil => rfl
  | append_singleton l e ih =>
    rw [rootEvs_snoc]
    split
    · rename_i h
      rw [ih, List.any_append]
      by_cases he : e.part = tp
      · subst he
        have h' : ((rootEvs l).any fun d => decide (d.part = e.part)) = true := h
        rw [ih] at h'
        simp [h']
      · simp [he]
    · rw [List.any_append, List.any_append, ih]

theorem rootEvs_mem {l : List Ev} {e : Ev} (h : e ∈ rootEvs l) : e ∈ l := by
  induction l using List.reverseRecOn with
  | nil => exact h
  | append_singleton l d ih =>
    rw [rootEvs_snoc] at h
    split at h
    · exact List.mem_append.2 (.inl (ih h))
    · rcases List.mem_append.1 h with h | h
      · exact List.mem_append.2 (.inl (ih h))
      · exact List.mem_append.2 (.inr h)

/-- How many transactions that have not ended were entered into the waiter of worker `j`. -/
def openRoots (p : Pool) (j : Nat) : Nat :=
  ((List.range' p.ended.length (p.gen + 1 - p.ended.length)).map fun g => (rootEvs (Eos.evOf p.added g)).countP fun e => owner e = j).sum

/-! ### Facts about the pool -/

section
variable (hn : 0 < c.poolSize) {p : Pool} (h : Eos.Reach c p)
include hn h

theorem pool_deck (h1 : p.fwd = .idle) :
    (p.nodes p.onDeck).evs = Eos.evOf p.added p.gen ∧ p.ended.length ≤ p.gen := by
  obtain ⟨a, ha, r⟩ := Eos.sim_reach hn h
  have B := Eos.base_reach hn ha
  have F := Eos.fin_reach hn ha
  have hlen : p.ended.length = if a.relinquished = none then a.lo else a.lo + 1 := by
    rw [r.ended, ← List.length_map (f := Prod.fst), F.ended, List.length_range]
  have hf : a.fwd ≠ .swap := by rw [← r.fwd, h1]; simp
  have htop := Eos.top_of_ne hf
  have hw := B.win
  rw [htop] at hw
  have hg : a.gen ≠ a.lo ∨ a.relinquished = none := by
    by_cases hr : a.relinquished = none
    · exact .inr hr
    · have := Eos.lo_lt_gen B hf (Eos.relinq_st B hr)
      exact .inl (by omega)
  rw [r.onDeck, r.nodes a.gen hw.1 hw.2, r.added, r.gen, hlen]
  refine ⟨B.evs a.gen hw.1 hg, ?_⟩
  split
  · exact hw.1
  · rename_i hr
    have := Eos.lo_lt_gen B hf (Eos.relinq_st B hr)
    omega

theorem pool_fin {q : Nat} {cur : List Ev} {fl : Bool} {rest : List Nat} (h1 : p.com = .fin q cur fl rest) :
    (p.nodes q).evs = Eos.evOf p.added p.ended.length ∧ p.nodeGen q = p.ended.length ∧ p.ended.length ≤ p.gen ∧
    ∀ e ∈ cur, (e, p.ended.length) ∈ p.added := by
  obtain ⟨a, ha, r⟩ := Eos.sim_reach hn h
  have B := Eos.base_reach hn ha
  have F := Eos.fin_reach hn ha
  have hlen : p.ended.length = if a.relinquished = none then a.lo else a.lo + 1 := by
    rw [r.ended, ← List.length_map (f := Prod.fst), F.ended, List.length_range]
  have hc := r.com
  rw [h1] at hc
  cases hac : a.com with
  | fin cur' fl' rest' =>
    rw [hac] at hc
    simp only [Eos.toCom, Eos.Com.fin.injEq] at hc
    obtain ⟨rfl, rfl, rfl, rfl⟩ := hc
    have hr : a.relinquished = none := by unfold Eos.A.relinquished; rw [hac]
    rw [if_pos hr] at hlen
    have hst : a.st = a.lo + 1 := by have := B.st; rw [hac] at this; exact this
    have hle := Eos.lo_le_gen B hst
    have hw := B.win
    have hnode : p.nodes (a.lo % c.poolSize) = a.nodes a.lo := r.nodes a.lo (Nat.le_refl _) (by omega)
    have hev := B.evs a.lo (Nat.le_refl _) (.inr hr)
    refine ⟨by rw [hnode, hlen, r.added]; exact hev, by rw [hlen]; exact r.nodeGen _ (Nat.le_refl _) hle, by rw [hlen, r.gen]; exact hle, ?_⟩
    intro e he
    obtain ⟨dn, ct, _, _, h4⟩ := B.fin _ _ _ hac
    cases ct with
    | none => simp only at h4; rw [h4] at he; cases he
    | some tp =>
      obtain ⟨pre, h5, _⟩ := h4
      have : e ∈ (a.nodes a.lo).chain tp := by rw [h5]; exact List.mem_append.2 (.inr he)
      have := (Eos.mem_chain.1 this).1
      rw [hev] at this
      rw [hlen, r.added]
      exact Eos.mem_evOf.1 this
  | _ => rw [hac] at hc; simp [Eos.toCom] at hc

/-- What is looked at while committing is looked at once. -/
theorem pass_once {q : Nat} {e : Ev} {es : List Ev} {fl : Bool} {rest : List Nat} (h1 : p.com = .fin q (e :: es) fl rest) :
    e ∉ es ∧ e.part ∉ rest := by
  obtain ⟨a, ha, r⟩ := Eos.sim_reach hn h
  have B := Eos.base_reach hn ha
  have hc := r.com
  rw [h1] at hc
  cases hac : a.com with
  | fin cur' fl' rest' =>
    rw [hac] at hc
    simp only [Eos.toCom, Eos.Com.fin.injEq] at hc
    obtain ⟨_, rfl, rfl, rfl⟩ := hc
    have hr : a.relinquished = none := by unfold Eos.A.relinquished; rw [hac]
    have hev := B.evs a.lo (Nat.le_refl _) (.inr hr)
    obtain ⟨dn, ct, hperm, _, h4⟩ := B.fin _ _ _ hac
    cases ct with
    | none => simp only at h4; cases h4
    | some tp =>
      obtain ⟨pre, h5, _⟩ := h4
      have hnd : (a.nodes a.lo).evs.Nodup := by
        rw [hev]
        have h6 : ((Eos.evOf a.added a.lo).map Ev.id).Nodup := by
          unfold Eos.evOf
          rw [List.map_map]
          exact B.ids.sublist (List.filter_sublist.map _)
        exact List.Nodup.of_map _ h6
      have hch : ((a.nodes a.lo).chain tp).Nodup := by unfold Eos.Node.chain; exact List.nodup_reverse.2 (hnd.filter _)
      rw [h5] at hch
      have h7 := (List.nodup_append.1 hch).2.1
      have hpart : e.part = tp := (Eos.mem_chain.1 (by rw [h5]; simp : e ∈ (a.nodes a.lo).chain tp)).2
      refine ⟨(List.nodup_cons.1 h7).1, ?_⟩
      have h8 := hperm.symm.nodup (Eos.parts_nodup _)
      rw [hpart]
      intro hm
      exact (List.nodup_append.1 h8).2.2 tp (by simp) tp hm rfl
  | _ => rw [hac] at hc; simp [Eos.toCom] at hc

theorem pool_le {e : Ev} {g : Nat} (h1 : (e, g) ∈ p.added) : g ≤ p.gen := by
  obtain ⟨a, ha, r⟩ := Eos.sim_reach hn h
  have B := Eos.base_reach hn ha
  rw [r.added] at h1
  rw [r.gen]
  exact B.le _ h1

theorem pool_unique {e d : Ev} {g g' : Nat} (h1 : (e, g) ∈ p.added) (h2 : (d, g') ∈ p.added) (h3 : e.id = d.id) : e = d ∧ g = g' := by
  obtain ⟨a, ha, r⟩ := Eos.sim_reach hn h
  have B := Eos.base_reach hn ha
  rw [r.added] at h1 h2
  exact Eos.added_unique B h1 h2 h3

theorem pool_len : p.ended.length ≤ p.gen + 1 := by
  obtain ⟨a, ha, r⟩ := Eos.sim_reach hn h
  have B := Eos.base_reach hn ha
  have F := Eos.fin_reach hn ha
  have hlen : p.ended.length = if a.relinquished = none then a.lo else a.lo + 1 := by
    rw [r.ended, ← List.length_map (f := Prod.fst), F.ended, List.length_range]
  rw [hlen, r.gen]
  have hw := B.win
  have ht : a.top ≤ a.gen + 1 := by unfold Eos.A.top; split <;> omega
  split
  · omega
  · rename_i hr
    have := Eos.lo_le_gen B (Eos.relinq_st B hr)
    omega

end

/-! ### The sum over the open transactions -/

theorem openRoots_same {p p' : Pool} (h1 : p'.ended.length = p.ended.length) (h2 : p'.gen = p.gen) (h3 : p'.added = p.added) (j : Nat) :
    openRoots p' j = openRoots p j := by unfold openRoots; rw [h1, h2, h3]

theorem openRoots_add {p p' : Pool} {e : Ev} (hlen : p.ended.length ≤ p.gen) (h1 : p'.ended = p.ended) (h2 : p'.gen = p.gen)
    (h3 : p'.added = p.added ++ [(e, p.gen)]) (j : Nat) :
    openRoots p' j = openRoots p j +
      if owner e = j ∧ ((Eos.evOf p.added p.gen).any fun d => d.part = e.part) = false then 1 else 0 := by
  unfold openRoots
  rw [h1, h2, h3]
  have hr : List.range' p.ended.length (p.gen + 1 - p.ended.length) = List.range' p.ended.length (p.gen - p.ended.length) ++ [p.gen] := by
    rw [show p.gen + 1 - p.ended.length = (p.gen - p.ended.length) + 1 by omega, List.range'_concat]
    congr 2; omega
  rw [hr]
  simp only [List.map_append, List.sum_append, List.map_cons, List.map_nil, List.sum_cons, List.sum_nil, Nat.add_zero]
  have he : (List.range' p.ended.length (p.gen - p.ended.length)).map (fun g => (rootEvs (Eos.evOf (p.added ++ [(e, p.gen)]) g)).countP fun d => owner d = j) =
      (List.range' p.ended.length (p.gen - p.ended.length)).map (fun g => (rootEvs (Eos.evOf p.added g)).countP fun d => owner d = j) := by
    refine List.map_congr_left fun g hg => ?_
    have : g ≠ p.gen := by have := List.mem_range'_1.1 hg; omega
    rw [Eos.evOf_snoc]
    simp [this, Ne.symm this]
  rw [he, Eos.evOf_snoc]
  simp only [if_true]
  rw [rootEvs_snoc]
  have ha := rootEvs_any (Eos.evOf p.added p.gen) e.part
  rw [ha]
  cases hb : ((Eos.evOf p.added p.gen).any fun d => decide (d.part = e.part)) with
  | true => simp
  | false =>
    simp only [Bool.false_eq_true, if_false, List.countP_append, List.countP_cons, List.countP_nil, and_true]
    by_cases ho : owner e = j
    · simp [ho]; omega
    · simp [ho]

theorem openRoots_swap {p p' : Pool} (hlen : p.ended.length ≤ p.gen + 1) (hle : ∀ e g, (e, g) ∈ p.added → g ≤ p.gen) (h1 : p'.ended = p.ended)
    (h2 : p'.gen = p.gen + 1) (h3 : p'.added = p.added) (j : Nat) : openRoots p' j = openRoots p j := by
  unfold openRoots
  rw [h1, h2, h3]
  rw [show p.gen + 1 + 1 - p.ended.length = (p.gen + 1 - p.ended.length) + 1 by omega, List.range'_concat, List.map_append, List.sum_append]
  have : p.ended.length + 1 * (p.gen + 1 - p.ended.length) = p.gen + 1 := by omega
  have hnil : Eos.evOf p.added (p.gen + 1) = [] := by
    refine Eos.evOf_nil ?_
    rintro ⟨e, g⟩ hx hg
    have := hle e g hx
    simp only at hg
    omega
  rw [this]
  simp [hnil, rootEvs]

theorem openRoots_end {p p' : Pool} {x : Nat × Bool} (hlen : p.ended.length ≤ p.gen) (h1 : p'.ended = p.ended ++ [x]) (h2 : p'.gen = p.gen)
    (h3 : p'.added = p.added) (j : Nat) :
    openRoots p j = (rootEvs (Eos.evOf p.added p.ended.length)).countP (fun e => owner e = j) + openRoots p' j := by
  unfold openRoots
  rw [h1, h2, h3, List.length_append, List.length_singleton]
  rw [show p.gen + 1 - p.ended.length = (p.gen + 1 - (p.ended.length + 1)) + 1 by omega, List.range'_succ, List.map_cons, List.sum_cons]

/-! ### The calls of `Done` -/

/-- `Done` for the first events, one after the other. -/
theorem rooted_spec {cw : Worker.Cfg} (es : List Ev) (f : Nat → PW) (h : ∀ j, (es.countP fun e => owner e = j) ≤ (f j).roots) (j : Nat) :
    (rooted cw f es j) = { f j with
      roots := (f j).roots - es.countP fun e => owner e = j
      waiter := (f j).waiter - (es.countP fun e => owner e = j : Nat) } := by
  unfold rooted
  induction es generalizing f with
  | nil => simp
  | cons e es ih =>
    have h0 : (f (owner e)).roots ≠ 0 := by
      have := h (owner e)
      rw [List.countP_cons] at this
      simp only [decide_true, if_true] at this
      omega
    have hstep : Worker.step cw (f (owner e)) .root =
        some { f (owner e) with roots := (f (owner e)).roots - 1, waiter := (f (owner e)).waiter - 1 } := by
      simp [Worker.step, h0]
    rw [List.foldl_cons, hstep]
    simp only [Option.getD_some]
    rw [ih]
    · by_cases hj : j = owner e
      · subst hj
        rw [upd_self, List.countP_cons]
        simp only [decide_true, if_true]
        congr 1
        · push_cast; omega
        · omega
      · rw [upd_other _ _ hj, List.countP_cons]
        simp [Ne.symm hj]
    · intro i
      by_cases hi : i = owner e
      · subst hi
        rw [upd_self]
        have := h (owner e)
        rw [List.countP_cons] at this
        simp only [decide_true, if_true] at this
        show _ ≤ (f (owner e)).roots - 1
        omega
      · rw [upd_other _ _ hi]
        have := h i
        rw [List.countP_cons] at this
        simpa [Ne.symm hi] using this

end Verif.Whole
