import Verif.Exact.Model
import Verif.Props.Eos
/-
Invariant of the process, and what read-committed readers see in it.
-/
set_option linter.unusedSectionVars false
set_option linter.unusedSimpArgs false
namespace Verif.Exact
open Verif.Eos

/-! ### Lists sorted by a key -/

theorem filter_lt_succ {α : Type} {k : α → Nat} {l : List α} (h : (l.map k).Pairwise (· ≤ ·)) (K : Nat) :
    (l.filter fun x => k x < K + 1) = (l.filter fun x => k x < K) ++ l.filter fun x => k x = K := by
  induction l with
  | nil => rfl
  | cons x l ih =>
    rw [List.map_cons, List.pairwise_cons] at h
    have ih := ih h.2
    have hle : ∀ y ∈ l, k x ≤ k y := fun y hy => h.1 _ (List.mem_map.2 ⟨y, hy, rfl⟩)
    rcases Nat.lt_trichotomy (k x) K with h1 | h1 | h1
    · have h2 : k x < K + 1 := by omega
      have h3 : ¬ k x = K := by omega
      simp [h1, h2, h3, ih]
    · have h2 : (l.filter fun y => k y < K) = [] := by
        rw [List.filter_eq_nil_iff]; intro y hy; have := hle y hy; simp; omega
      rw [h2, List.nil_append] at ih
      have h3 : k x < K + 1 := by omega
      have h4 : ¬ k x < K := by omega
      rw [List.filter_cons, if_pos (by simpa using h3), List.filter_cons, if_neg (by simpa using h4), h2, List.nil_append,
        List.filter_cons, if_pos (by simpa using h1), ih]
    · have h2 : ∀ p : Nat → Bool, (∀ y, K < y → p y = false) → (l.filter fun y => p (k y)) = [] := by
        intro p hp
        rw [List.filter_eq_nil_iff]; intro y hy; have := hle y hy; rw [hp _ (by omega)]; simp
      have h3 : ¬ k x < K + 1 := by omega
      have h4 : ¬ k x < K := by omega
      have h5 : ¬ k x = K := by omega
      rw [List.filter_cons, if_neg (by simpa using h3), List.filter_cons, if_neg (by simpa using h4),
        List.filter_cons, if_neg (by simpa using h5)]
      exact ih

theorem filter_lt_eq_flatMap {α : Type} {k : α → Nat} {l : List α} (h : (l.map k).Pairwise (· ≤ ·)) (K : Nat) :
    (l.filter fun x => k x < K) = (List.range K).flatMap fun g => l.filter fun x => k x = g := by
  induction K with
  | zero => simp
  | succ K ih => rw [filter_lt_succ h, ih, List.range_succ, List.flatMap_append]; simp

theorem filter_split {α : Type} {k : α → Nat} {l : List α} (h : (l.map k).Pairwise (· ≤ ·)) (K : Nat) :
    l = (l.filter fun x => k x < K) ++ l.filter fun x => K ≤ k x := by
  induction l with
  | nil => rfl
  | cons x l ih =>
    rw [List.map_cons, List.pairwise_cons] at h
    have ih := ih h.2
    have hle : ∀ y ∈ l, k x ≤ k y := fun y hy => h.1 _ (List.mem_map.2 ⟨y, hy, rfl⟩)
    by_cases h1 : k x < K
    · have h2 : ¬ K ≤ k x := by omega
      rw [List.filter_cons, if_pos (by simpa using h1), List.filter_cons, if_neg (by simpa using h2), List.cons_append, ← ih]
    · have h2 : K ≤ k x := by omega
      have h3 : (l.filter fun y => k y < K) = [] := by
        rw [List.filter_eq_nil_iff]; intro y hy; have := hle y hy; simp; omega
      rw [h3, List.nil_append] at ih
      rw [List.filter_cons, if_neg (by simpa using h1), h3, List.nil_append, List.filter_cons, if_pos (by simpa using h2), ← ih]

theorem getLast_flatMap {α : Type} {k : α → Nat} {l : List α} (h : (l.map k).Pairwise (· ≤ ·)) (f : α → Nat) (K : Nat) :
    ((List.range K).flatMap fun g => ((l.filter fun x => k x = g).getLast?.map f).toList).getLast? =
      ((l.filter fun x => k x < K).getLast?).map f := by
  induction K with
  | zero => simp
  | succ K ih =>
    rw [List.range_succ, List.flatMap_append, List.getLast?_append, ih, filter_lt_succ h, List.getLast?_append]
    cases hh : (l.filter fun x => k x = K).getLast? with
    | none => simp only [List.flatMap_cons, List.flatMap_nil, List.append_nil, hh]; simp
    | some x => simp only [List.flatMap_cons, List.flatMap_nil, List.append_nil, hh]; simp

/-! ### Specification of handling -/

variable {S X : Type}

/-- The records of handling a list of events one after the other. -/
def effects (a : App S X) : S → List X → List Nat
  | _, [] => []
  | s, x :: xs => a.handle s x ++ effects a ((a.handle s x).foldl a.apply s) xs

theorem effects_append (a : App S X) (s : S) (l m : List X) :
    effects a s (l ++ m) = effects a s l ++ effects a ((effects a s l).foldl a.apply s) m := by
  induction l generalizing s with
  | nil => rfl
  | cons x l ih => simp [effects, ih, List.foldl_append]

/-- An event with its transaction and its content. -/
abbrev Item (X : Type) := (Ev × Nat) × X

/-- The records of handling a list of events, each with the transaction of its event. -/
def trace (a : App S X) : S → List (Item X) → List (Nat × Nat)
  | _, [] => []
  | s, z :: zs => (a.handle s z.2).map (fun y => (z.1.2, y)) ++ trace a ((a.handle s z.2).foldl a.apply s) zs

theorem trace_snd (a : App S X) (s : S) (l : List (Item X)) : (trace a s l).map Prod.snd = effects a s (l.map Prod.snd) := by
  induction l generalizing s with
  | nil => rfl
  | cons z l ih =>
    simp only [trace, List.map_append, List.map_map, effects, List.map_cons, ih]
    congr 1
    conv_rhs => rw [← List.map_id (a.handle s z.2)]
    rfl

theorem trace_append (a : App S X) (s : S) (l m : List (Item X)) :
    trace a s (l ++ m) = trace a s l ++ trace a ((effects a s (l.map Prod.snd)).foldl a.apply s) m := by
  induction l generalizing s with
  | nil => rfl
  | cons z l ih => simp [trace, effects, ih, List.foldl_append]

theorem trace_fst (a : App S X) (s : S) (l : List (Item X)) : ∀ t ∈ trace a s l, ∃ z ∈ l, t.1 = z.1.2 := by
  induction l generalizing s with
  | nil => simp [trace]
  | cons z l ih =>
    intro t ht
    simp only [trace, List.mem_append, List.mem_map] at ht
    rcases ht with ⟨y, _, rfl⟩ | ht
    · exact ⟨z, by simp, rfl⟩
    · obtain ⟨z', h1, h2⟩ := ih _ t ht
      exact ⟨z', by simp [h1], h2⟩

theorem trace_sorted (a : App S X) (s : S) (l : List (Item X)) (h : (l.map fun z => z.1.2).Pairwise (· ≤ ·)) :
    ((trace a s l).map Prod.fst).Pairwise (· ≤ ·) := by
  induction l generalizing s with
  | nil => simp [trace]
  | cons z l ih =>
    rw [List.map_cons, List.pairwise_cons] at h
    simp only [trace, List.map_append, List.map_map]
    rw [List.pairwise_append]
    refine ⟨?_, ih _ h.2, ?_⟩
    · rw [List.pairwise_map]
      exact List.pairwise_of_forall (fun _ _ => Nat.le_refl _)
    · intro g1 h1 g2 h2
      obtain ⟨y, _, rfl⟩ := List.mem_map.1 h1
      obtain ⟨t, ht, rfl⟩ := List.mem_map.1 h2
      obtain ⟨z', h3, h4⟩ := trace_fst a _ l t ht
      rw [h4]
      exact h.1 _ (List.mem_map.2 ⟨z', h3, rfl⟩)

/-- The application's records for the partition among the calls of `ProduceRecord`, with their transactions. -/
def callsU (tp : Nat) (l : List Out) : List (Nat × Nat) :=
  l.filterMap fun o => match o.r with
    | .user x => if o.part = tp then some (o.gen, x) else none
    | .commit _ _ => none

theorem callsU_append (tp : Nat) (l m : List Out) : callsU tp (l ++ m) = callsU tp l ++ callsU tp m := by
  simp [callsU]

theorem users_ofTp (tp g : Nat) (l : List Out) :
    users (ofTp l g tp) = ((callsU tp l).filter fun t => t.1 = g).map Prod.snd := by
  induction l with
  | nil => rfl
  | cons o l ih =>
    rw [show o :: l = [o] ++ l from rfl, ofTp_append, callsU_append, List.filter_append, List.map_append, ← ih]
    unfold users
    rw [List.filterMap_append]
    congr 1
    rw [ofTp_one]
    rcases o with ⟨og, op, r⟩
    cases r with
    | user x =>
      simp only [callsU, List.filterMap_cons, List.filterMap_nil]
      by_cases h1 : op = tp
      · by_cases h2 : og = g <;> simp [h1, h2]
      · by_cases h2 : og = g <;> simp [h1, h2]
    | commit p x =>
      simp only [callsU, List.filterMap_cons, List.filterMap_nil]
      by_cases h1 : og = g ∧ op = tp <;> simp [h1]

/-! ### The invariant -/

structure Inv (c : Cfg) (a : App S X) (tp : Nat) (src : List (Nat × X)) (w : World S X)
    (hd cl ql : List (Item X)) (em : List Nat) : Prop where
  reach : Reach c w.pool
  fed : (w.pool.added.filter fun x => x.1.part = tp) = (hd ++ cl ++ ql).map Prod.fst
  rest : (hd ++ cl ++ ql).map (fun z => (z.1.1.off, z.2)) ++ w.next.map (fun r => (some r.1, r.2)) =
    (src.filter fun r => w.wm ≤ r.1).map fun r => (some r.1, r.2)
  cur : match w.cur with
    | none => cl = [] ∧ em = []
    | some (e, ys) => ∃ z, cl = [z] ∧ z.1.1 = e ∧
        em ++ ys = a.handle ((effects a (w.base.foldl a.apply a.s0) (hd.map Prod.snd)).foldl a.apply (w.base.foldl a.apply a.s0)) z.2
  queue : w.queue = ql.map fun z => (z.1.1, z.2)
  undone : ∀ z ∈ cl ++ ql, z.1.1.id ∉ w.pool.done
  calls : callsU tp w.pool.calls = trace a (w.base.foldl a.apply a.s0) hd ++
    (cl.flatMap fun z => em.map fun y => (z.1.2, y))
  st : w.st = (effects a (w.base.foldl a.apply a.s0) (hd.map Prod.snd) ++ em).foldl a.apply (w.base.foldl a.apply a.s0)
  base : w.base = effects a a.s0 ((src.filter fun r => r.1 < w.wm).map Prod.snd)

section
variable {c : Cfg} {a : App S X} {tp : Nat} {src : List (Nat × X)} (hn : 0 < c.poolSize)
include hn

/-- What read-committed readers see, from the invariant. -/
theorem visible_of_inv (hsrc : (src.map Prod.fst).Pairwise (· < ·)) {w : World S X} {hd cl ql : List (Item X)} {em : List Nat}
    (I : Inv c a tp src w hd cl ql em) :
    w.visible tp = effects a a.s0 ((src.filter fun r => r.1 < w.watermark tp).map Prod.snd) := by
  obtain ⟨A, ha, r, B, O, F, H⟩ := ended_old hn I.reach
  have hend : w.pool.ended.map Prod.fst = List.range w.pool.ended.length := by
    have h1 := F.ended
    rw [r.ended, h1]
    congr 1
    have := congrArg List.length h1
    simp only [List.length_map, List.length_range] at this
    exact this.symm
  generalize hK : w.pool.ended.length = K at hend
  have hmem : ∀ g, g < K ↔ g ∈ w.pool.ended.map Prod.fst := fun g => by rw [hend, List.mem_range]
  -- the committed records are those of the ended transactions
  have hco : committedOuts w.pool tp = (w.pool.sent.filter fun o => o.part = tp).filter fun o => o.gen < K := by
    unfold committedOuts
    rw [List.filter_filter]
    apply List.filter_congr
    intro o ho
    have : ((o.gen, true) ∈ w.pool.ended) ↔ o.gen < K := by
      rw [hmem]
      constructor
      · intro h; exact List.mem_map.2 ⟨_, h, rfl⟩
      · intro h
        obtain ⟨⟨g, b⟩, h1, h2⟩ := List.mem_map.1 h
        simp only at h2
        subst h2
        rw [r.sent] at ho
        rw [r.ended] at h1
        have hb := (F.flag _ b h1).2 ⟨o, O.sub o ho, rfl⟩
        subst hb
        rw [r.ended]; exact h1
    by_cases e1 : o.part = tp <;> simp [e1, this]
  have hsort : ((w.pool.sent.filter fun o => o.part = tp).map Out.gen).Pairwise (· ≤ ·) := by
    rw [r.sent]; exact O.order tp
  have hclass : ∀ g, ((w.pool.sent.filter fun o => o.part = tp).filter fun o => o.gen = g) = ofTp w.pool.sent g tp := by
    intro g
    unfold ofTp
    rw [List.filter_filter]
    apply List.filter_congr
    intro o _
    by_cases e1 : o.part = tp <;> by_cases e2 : o.gen = g <;> simp [e1, e2]
  have hco2 : committedOuts w.pool tp = (List.range K).flatMap fun g => ofTp w.pool.sent g tp := by
    rw [hco, filter_lt_eq_flatMap hsort]
    simp only [hclass]
  -- the events, sorted by transaction
  have hgens : ((hd ++ cl ++ ql).map fun z => z.1.2).Pairwise (· ≤ ·) := by
    have h1 : ((w.pool.added.filter fun x => x.1.part = tp).map Prod.snd).Pairwise (· ≤ ·) := by
      rw [r.added]
      exact List.Pairwise.sublist (List.Sublist.map _ List.filter_sublist) B.mono
    rw [I.fed, List.map_map] at h1
    exact h1
  have hdone : ∀ z ∈ hd ++ cl ++ ql, z.1.2 < K → z.1.1.id ∈ w.pool.done := by
    intro z hz hlt
    refine ended_done hn I.reach ((hmem _).1 hlt) z.1.1 ?_
    have : z.1 ∈ (w.pool.added.filter fun x => x.1.part = tp) := by
      rw [I.fed]; exact List.mem_map.2 ⟨z, hz, rfl⟩
    exact (List.mem_filter.1 this).1
  have hlate : ∀ z ∈ cl ++ ql, K ≤ z.1.2 := by
    intro z hz
    by_contra hc
    refine I.undone z hz (hdone z ?_ (by omega))
    simp only [List.mem_append] at hz ⊢
    tauto
  have hgh : (hd.map fun z => z.1.2).Pairwise (· ≤ ·) := by
    rw [List.append_assoc, List.map_append] at hgens
    exact (List.pairwise_append.1 hgens).1
  have hP : ((hd ++ cl ++ ql).filter fun z => z.1.2 < K) = hd.filter fun z => z.1.2 < K := by
    rw [List.append_assoc, List.filter_append]
    have : ((cl ++ ql).filter fun z => z.1.2 < K) = [] := by
      rw [List.filter_eq_nil_iff]
      intro z hz
      have := hlate z hz
      simp; omega
    rw [this, List.append_nil]
  have hsplit := filter_split (k := fun z : Item X => z.1.2) hgh K
  generalize hPd : (hd.filter fun z => z.1.2 < K) = P at hP hsplit
  generalize hQd : (hd.filter fun z => K ≤ z.1.2) = Q at hsplit
  have hPlt : ∀ z ∈ P, z.1.2 < K := by rw [← hPd]; intro z hz; simpa using (List.mem_filter.1 hz).2
  have hQge : ∀ z ∈ Q, K ≤ z.1.2 := by rw [← hQd]; intro z hz; simpa using (List.mem_filter.1 hz).2
  generalize hst0 : w.base.foldl a.apply a.s0 = st0 at *
  -- the visible records of this incarnation
  have hvis : users (committedOuts w.pool tp) = effects a st0 (P.map Prod.snd) := by
    have hT : ((callsU tp w.pool.calls).map Prod.fst).Pairwise (· ≤ ·) := by
      rw [I.calls, List.map_append, List.pairwise_append]
      refine ⟨trace_sorted a _ hd hgh, ?_, ?_⟩
      · cases hc : w.cur with
        | none =>
          have := I.cur
          rw [hc] at this
          rw [this.1]; simp
        | some cu =>
          obtain ⟨e, ys⟩ := cu
          have := I.cur
          rw [hc] at this
          obtain ⟨z, h1, _⟩ := this
          rw [h1]
          simp only [List.flatMap_cons, List.flatMap_nil, List.append_nil, List.map_map]
          rw [List.pairwise_map]
          exact List.pairwise_of_forall (fun _ _ => Nat.le_refl _)
      · intro g1 h1 g2 h2
        obtain ⟨t, ht, rfl⟩ := List.mem_map.1 h1
        obtain ⟨z, hz, hzt⟩ := trace_fst a _ hd t ht
        obtain ⟨t', ht', rfl⟩ := List.mem_map.1 h2
        simp only [List.mem_flatMap, List.mem_map] at ht'
        obtain ⟨z', hz', y, _, rfl⟩ := ht'
        rw [hzt]
        simp only
        rw [List.map_append, List.map_append, List.append_assoc, List.pairwise_append] at hgens
        exact hgens.2.2 _ (List.mem_map.2 ⟨z, hz, rfl⟩) _
          (List.mem_append.2 (.inl (List.mem_map.2 ⟨z', hz', rfl⟩)))
    have h1 : users (committedOuts w.pool tp) = ((callsU tp w.pool.calls).filter fun t => t.1 < K).map Prod.snd := by
      rw [hco2, filter_lt_eq_flatMap hT]
      unfold users
      rw [List.filterMap_flatMap, List.map_flatMap]
      apply List.flatMap_congr
      intro g hg
      rw [List.mem_range] at hg
      rw [ended_sent hn I.reach ((hmem g).1 hg) tp]
      exact users_ofTp tp g w.pool.calls
    rw [h1, I.calls, List.filter_append, hst0, hsplit, trace_append, List.filter_append]
    have h2 : ((trace a st0 P).filter fun t => t.1 < K) = trace a st0 P := by
      rw [List.filter_eq_self]
      intro t ht
      obtain ⟨z, hz, hzt⟩ := trace_fst a _ P t ht
      rw [hzt]; simpa using hPlt z hz
    have h3 : ∀ s, ((trace a s Q).filter fun t => t.1 < K) = [] := by
      intro s
      rw [List.filter_eq_nil_iff]
      intro t ht
      obtain ⟨z, hz, hzt⟩ := trace_fst a _ Q t ht
      rw [hzt]; have := hQge z hz; simp; omega
    have h4 : ((cl.flatMap fun z => em.map fun y => (z.1.2, y)).filter fun t => t.1 < K) = [] := by
      rw [List.filter_eq_nil_iff]
      intro t ht
      simp only [List.mem_flatMap, List.mem_map] at ht
      obtain ⟨z', hz', y, _, rfl⟩ := ht
      have := hlate z' (by simp [hz'])
      simp; omega
    rw [h2, h3, h4, List.append_nil, List.append_nil, trace_snd]
  -- the watermark
  have hoffs : ∀ z ∈ hd ++ cl ++ ql, ∃ o, z.1.1.off = some o := by
    intro z hz
    have h1 : (z.1.1.off, z.2) ∈ (src.filter fun r => w.wm ≤ r.1).map fun r => ((some r.1 : Option Nat), r.2) := by
      rw [← I.rest]
      exact List.mem_append.2 (.inl (List.mem_map.2 ⟨z, hz, rfl⟩))
    obtain ⟨r', _, h2⟩ := List.mem_map.1 h1
    simp only [Prod.mk.injEq] at h2
    exact ⟨r'.1, h2.1.symm⟩
  have hwm : w.watermark tp = (P.getLast?.map fun z => z.1.1.off.getD 0 + 1).getD w.wm := by
    unfold World.watermark
    rw [hco2]
    congr 1
    have h1 : offsets ((List.range K).flatMap fun g => ofTp w.pool.sent g tp) =
        (List.range K).flatMap fun g =>
          (((hd ++ cl ++ ql).filter fun z => z.1.2 = g).getLast?.map fun z => z.1.1.off.getD 0 + 1).toList := by
      unfold offsets
      rw [List.filterMap_flatMap]
      apply List.flatMap_congr
      intro g hg
      rw [List.mem_range] at hg
      have h2 := ended_commits hn I.reach ((hmem g).1 hg) tp
      have h3 : offsets (ofTp w.pool.sent g tp) = (commits w.pool.sent g tp).map Prod.snd := by
        unfold commits offsets
        rw [List.map_filterMap]
        apply List.filterMap_congr
        intro o _
        cases o.r <;> rfl
      change offsets (ofTp w.pool.sent g tp) = _
      rw [h3, h2]
      unfold expect newest
      have h4 : ((evOf w.pool.added g).filter fun e => e.part = tp) =
          ((hd ++ cl ++ ql).filter fun z => z.1.2 = g).map fun z => z.1.1 := by
        unfold evOf
        rw [List.filter_map, List.filter_filter]
        have h5 : (w.pool.added.filter fun x => (decide (x.1.part = tp) && decide (x.2 = g))) =
            ((w.pool.added.filter fun x => x.1.part = tp).filter fun x => x.2 = g) := by
          rw [List.filter_filter]
          apply List.filter_congr
          intro x _
          exact Bool.and_comm _ _
        have h6 : (w.pool.added.filter fun x => (((fun e : Ev => decide (e.part = tp)) ∘ Prod.fst) x && decide (x.2 = g))) =
            (w.pool.added.filter fun x => (decide (x.1.part = tp) && decide (x.2 = g))) := rfl
        rw [h6, h5, I.fed, List.filter_map, List.map_map]
        rfl
      rw [h4]
      -- all of them are real events
      generalize hL : ((hd ++ cl ++ ql).filter fun z => z.1.2 = g) = L
      have hLo : ∀ z ∈ L, ∃ o, z.1.1.off = some o := by
        intro z hz; rw [← hL] at hz; exact hoffs z (List.mem_filter.1 hz).1
      rw [← List.map_reverse, List.filterMap_map]
      have h7 : (L.reverse.filterMap (Ev.off ∘ fun z : Item X => z.1.1)) = L.reverse.map fun z => z.1.1.off.getD 0 := by
        rw [← List.filterMap_eq_map]
        apply List.filterMap_congr
        intro z hz
        obtain ⟨o, ho⟩ := hLo z (List.mem_reverse.1 hz)
        simp [ho]
      rw [h7, List.head?_map, List.head?_reverse]
      cases L.getLast? <;> simp
    rw [h1, getLast_flatMap (k := fun z : Item X => z.1.2) hgens, hP]
  -- putting it together
  unfold World.visible
  rw [hvis, I.base]
  have hpre : (src.filter fun r => r.1 < w.watermark tp).map Prod.snd =
      (src.filter fun r => r.1 < w.wm).map Prod.snd ++ P.map Prod.snd := by
    have hsle : (src.map Prod.fst).Pairwise (· ≤ ·) := hsrc.imp (fun h => Nat.le_of_lt h)
    have hs1 := filter_split (k := fun q : Nat × X => q.1) hsle w.wm
    cases hl : P.getLast? with
    | none =>
      have hPn : P = [] := List.getLast?_eq_none_iff.1 hl
      rw [hwm, hl, hPn]; simp
    | some z =>
      have hPz : P = P.dropLast ++ [z] := by
        have := List.dropLast_append_getLast? (l := P) z (by rw [hl]; rfl)
        exact this.symm
      have hzP : z ∈ P := by rw [hPz]; simp
      have hzall : ∀ z' ∈ P, z' ∈ hd ++ cl ++ ql := by
        intro z' hz'
        rw [← hPd] at hz'
        have := (List.mem_filter.1 hz').1
        simp [this]
      obtain ⟨o, ho⟩ := hoffs z (hzall z hzP)
      rw [hwm, hl]
      simp only [Option.map_some, Option.getD_some, ho]
      -- the suffix of the source, written with the events
      have hall : (src.filter fun r => w.wm ≤ r.1).map (fun r => ((some r.1 : Option Nat), r.2)) =
          P.map (fun z => (z.1.1.off, z.2)) ++ ((Q ++ cl ++ ql).map (fun z => (z.1.1.off, z.2)) ++
            w.next.map (fun r => (some r.1, r.2))) := by
        rw [← I.rest, hsplit]; simp
      have hmap2 : ∀ l : List (Nat × X), (∀ m : List (Option Nat × X), l.map (fun r => ((some r.1 : Option Nat), r.2)) = m →
          l = m.map fun q => (q.1.getD 0, q.2)) := by
        intro l m hm
        rw [← hm, List.map_map]
        conv_lhs => rw [← List.map_id l]
        rfl
      have hall2 := hmap2 _ _ hall
      rw [List.map_append] at hall2
      generalize hRd : (((Q ++ cl ++ ql).map (fun z : Item X => (z.1.1.off, z.2)) ++
            w.next.map (fun r => ((some r.1 : Option Nat), r.2))).map fun q => (q.1.getD 0, q.2)) = R at hall2
      have hPm : ((P.map (fun z : Item X => (z.1.1.off, z.2))).map fun q => (q.1.getD 0, q.2)) =
          P.map fun z => (z.1.1.off.getD 0, z.2) := by rw [List.map_map]; rfl
      rw [hPm] at hall2
      -- it is sorted
      have hss : (((src.filter fun r => w.wm ≤ r.1)).map Prod.fst).Pairwise (· < ·) :=
        List.Pairwise.sublist (List.Sublist.map _ List.filter_sublist) hsrc
      rw [hall2, hPz] at hss
      simp only [List.map_append, List.map_cons, List.map_nil, List.append_assoc, List.pairwise_append] at hss
      obtain ⟨_, ⟨_, _, k3⟩, k4⟩ := hss
      have hge : w.wm ≤ o := by
        have : (o, z.2) ∈ (src.filter fun r => w.wm ≤ r.1) := by
          rw [hall2]
          refine List.mem_append.2 (.inl (List.mem_map.2 ⟨z, hzP, ?_⟩))
          simp [ho]
        simpa using (List.mem_filter.1 this).2
      conv_lhs => rw [hs1]
      rw [List.filter_append, List.map_append]
      congr 1
      · congr 1
        rw [List.filter_eq_self]
        intro q hq
        have := (List.mem_filter.1 hq).2
        simp at this ⊢
        omega
      · rw [hall2, List.filter_append, List.map_append]
        have e1 : ((P.map fun z => (z.1.1.off.getD 0, z.2)).filter fun r => r.1 < o + 1) =
            P.map fun z => (z.1.1.off.getD 0, z.2) := by
          rw [List.filter_eq_self]
          intro q hq
          obtain ⟨z', hz', rfl⟩ := List.mem_map.1 hq
          simp only [decide_eq_true_eq]
          rw [hPz] at hz'
          rcases List.mem_append.1 hz' with hz' | hz'
          · have := k4 (z'.1.1.off.getD 0) (List.mem_map.2 ⟨_, List.mem_map.2 ⟨z', hz', rfl⟩, rfl⟩) (z.1.1.off.getD 0) (by simp)
            rw [ho] at this
            simp at this; omega
          · simp at hz'; subst hz'; simp [ho]
        have e2 : (R.filter fun r => r.1 < o + 1) = [] := by
          rw [List.filter_eq_nil_iff]
          intro q hq
          have := k3 (z.1.1.off.getD 0) (by simp) q.1 (List.mem_map.2 ⟨q, hq, rfl⟩)
          rw [ho] at this
          simp at this ⊢; omega
        rw [e1, e2, List.map_map]
        simp
  rw [hpre, effects_append]
  congr 1
  rw [← hst0, I.base]

omit hn in
theorem foreign_step {s s' : Pool} {l : Label} (hf : foreign tp l = true) (h : step c s l = some s') :
    callsU tp s'.calls = callsU tp s.calls ∧
    (s'.added.filter fun x => x.1.part = tp) = (s.added.filter fun x => x.1.part = tp) ∧
    (∀ i ∈ s'.done, i ∈ s.done ∨ ∃ e ∈ s.added.map Prod.fst, e.id = i ∧ e.part ≠ tp) := by
  have hpc : ∀ p q r, (q = tp → ∃ a b, r = Rec.commit a b) → callsU tp (produce s p q r).calls = callsU tp s.calls := by
    intro p q r hq
    have : (produce s p q r).calls = s.calls ++ [⟨s.nodeGen p, q, r⟩] := by unfold produce; dsimp only; split <;> rfl
    rw [this, callsU_append]
    cases r with
    | commit a b => simp [callsU]
    | user x =>
      have : q ≠ tp := by
        intro h; obtain ⟨_, _, h2⟩ := hq h; cases h2
      simp [callsU, this]
  have hpa : ∀ p q r, (produce s p q r).added = s.added ∧ (produce s p q r).done = s.done := by
    intro p q r; unfold produce; dsimp only; split <;> exact ⟨rfl, rfl⟩
  have hrl : ∀ p q, (relinquish c.poolSize s p q).calls = s.calls ∧ (relinquish c.poolSize s p q).added = s.added ∧
      (relinquish c.poolSize s p q).done = s.done := by
    intro p q; unfold relinquish; dsimp only; split <;> exact ⟨rfl, rfl, rfl⟩
  have same : ∀ {s'' : Pool}, some s'' = some s' → s''.calls = s.calls → s''.added = s.added → s''.done = s.done →
      callsU tp s'.calls = callsU tp s.calls ∧
      (s'.added.filter fun x => x.1.part = tp) = (s.added.filter fun x => x.1.part = tp) ∧
      (∀ i ∈ s'.done, i ∈ s.done ∨ ∃ e ∈ s.added.map Prod.fst, e.id = i ∧ e.part ≠ tp) := by
    intro s'' h4 h1 h2 h3
    rw [← Option.some.inj h4, h1, h2, h3]
    exact ⟨rfl, rfl, fun i hi => .inl hi⟩
  cases l with
  | add e =>
    have hf' : e.part ≠ tp := by simpa [foreign] using hf
    unfold step at h; simp only at h
    split at h
    · cases h
    · split at h
      · cases h
      · cases h
        refine ⟨rfl, ?_, fun i hi => .inl hi⟩
        simp [List.filter_append, hf']
    · cases h
  | produce e x =>
    have hf' : e.part ≠ tp := by simpa [foreign] using hf
    unfold step at h; simp only at h
    split at h
    · split at h
      · cases h
        refine ⟨hpc _ _ _ (fun h => absurd h hf'), ?_, ?_⟩
        · rw [(hpa _ _ _).1]
        · rw [(hpa _ _ _).2]; exact fun i hi => .inl hi
      · cases h
    · cases h
  | complete e =>
    have hf' : e.part ≠ tp := by simpa [foreign] using hf
    unfold step at h; simp only at h
    split at h
    · split at h
      · rename_i hh
        cases h
        refine ⟨rfl, rfl, ?_⟩
        intro i hi
        rcases List.mem_append.1 hi with hi | hi
        · exact .inl hi
        · right
          rw [List.mem_singleton] at hi
          exact ⟨e, hh.1, hi.symm, hf'⟩
      · cases h
    · cases h
  | wait =>
    unfold step at h; simp only at h
    split at h
    · split at h
      · split at h
        · cases h
          refine ⟨?_, ?_, ?_⟩
          · exact hpc _ _ _ (fun _ => ⟨_, _, rfl⟩)
          · show List.filter _ (produce s _ _ _).added = _
            rw [(hpa _ _ _).1]
          · show ∀ i ∈ (produce s _ _ _).done, _
            rw [(hpa _ _ _).2]; exact fun i hi => .inl hi
        · exact same h rfl rfl rfl
      · cases h
    · exact same h rfl rfl rfl
    · cases h
  | release =>
    unfold step at h; simp only at h
    split at h
    · rename_i p q rest _
      exact same h (hrl p q).1 (hrl p q).2.1 (hrl p q).2.2
    · exact same h rfl rfl rfl
    · cases h
  | _ =>
    unfold step at h
    simp only at h
    repeat' split at h
    all_goals first
      | exact same h rfl rfl rfl
      | cases h

omit hn in
theorem added_mono {s s' : Pool} {l : Label} (h : step c s l = some s') : ∀ x ∈ s.added, x ∈ s'.added := by
  have hpa : ∀ p q r, (produce s p q r).added = s.added := by
    intro p q r; unfold produce; dsimp only; split <;> rfl
  have hrl : ∀ p q, (relinquish c.poolSize s p q).added = s.added := by
    intro p q; unfold relinquish; dsimp only; split <;> rfl
  have same : ∀ {s'' : Pool}, some s'' = some s' → s''.added = s.added → ∀ x ∈ s.added, x ∈ s'.added := by
    intro s'' h4 h1 x hx
    rw [← Option.some.inj h4, h1]; exact hx
  cases l <;>
  · unfold step at h
    simp only at h
    repeat' split at h
    all_goals first
      | exact same h rfl
      | exact same h (hpa _ _ _)
      | exact same h (hrl _ _)
      | (rw [← Option.some.inj h]; intro x hx; exact List.mem_append.2 (.inl hx))
      | cases h

omit hn in
theorem done_added {s : Pool} (h : Reach c s) : ∀ i ∈ s.done, ∃ x ∈ s.added, x.1.id = i := by
  induction h with
  | init => simp [Pool.init]
  | @step s s' l _ hl hs ih =>
    intro i hi
    have hm := added_mono hs
    have key : ∀ t, foreign t l = true → ∃ x ∈ s'.added, x.1.id = i := by
      intro t ht
      rcases (foreign_step ht hs).2.2 i hi with k | ⟨e, he, hid, _⟩
      · obtain ⟨x, hx, hxi⟩ := ih i k
        exact ⟨x, hm x hx, hxi⟩
      · obtain ⟨x, hx, rfl⟩ := List.mem_map.1 he
        exact ⟨x, hm x hx, hid⟩
    cases l with
    | add e => exact key (e.part + 1) (by simp [foreign])
    | produce e x => exact key (e.part + 1) (by simp [foreign])
    | complete e => exact key (e.part + 1) (by simp [foreign])
    | commitFail b => cases b with
      | true => exact absurd rfl hl
      | false => exact key 0 rfl
    | _ => exact key 0 rfl

omit hn in
theorem foreign_ne {l : Label} (hf : foreign tp l = true) : l ≠ .commitFail true := by
  rintro rfl; simp [foreign] at hf

omit hn in
theorem inv_boot (base : List Nat) (wm : Nat) (hb : base = effects a a.s0 ((src.filter fun r => r.1 < wm).map Prod.snd)) :
    Inv c a tp src (boot c a src base wm) [] [] [] [] where
  reach := Reach.init
  fed := rfl
  rest := rfl
  cur := ⟨rfl, rfl⟩
  queue := rfl
  undone := by simp
  calls := rfl
  st := by simp [boot, effects]
  base := hb

/-- The invariant holds in every state. -/
theorem inv_reach (hsrc : (src.map Prod.fst).Pairwise (· < ·)) {w : World S X} (h : WReach c a tp src w) :
    ∃ hd cl ql em, Inv c a tp src w hd cl ql em := by
  induction h with
  | init => exact ⟨[], [], [], [], inv_boot [] 0 (by simp [effects])⟩
  | @step w w' l _ hs ih =>
    obtain ⟨hd, cl, ql, em, I⟩ := ih
    obtain ⟨A, ha, r, B, O, F, H⟩ := ended_old hn I.reach
    have hin : ∀ z ∈ hd ++ cl ++ ql, z.1 ∈ w.pool.added ∧ z.1.1.part = tp := by
      intro z hz
      have : z.1 ∈ (w.pool.added.filter fun x => x.1.part = tp) := by
        rw [I.fed]; exact List.mem_map.2 ⟨z, hz, rfl⟩
      have := List.mem_filter.1 this
      exact ⟨this.1, by simpa using this.2⟩
    have hids : ((hd ++ cl ++ ql).map fun z => z.1.1.id).Nodup := by
      have h1 : ((w.pool.added.filter fun x => x.1.part = tp).map fun x => x.1.id).Nodup := by
        rw [r.added]
        exact List.Nodup.sublist (List.Sublist.map _ List.filter_sublist) B.ids
      rw [I.fed, List.map_map] at h1
      exact h1
    cases l with
    | pool l =>
      unfold wstep at hs; simp only at hs
      split at hs
      · rename_i hf
        obtain ⟨p, hp, rfl⟩ := Option.map_eq_some_iff.1 hs
        obtain ⟨k1, k2, k3⟩ := foreign_step hf hp
        refine ⟨hd, cl, ql, em, ?_⟩
        exact
          { reach := .step l I.reach (foreign_ne hf) hp
            fed := k2.trans I.fed
            rest := I.rest
            cur := I.cur
            queue := I.queue
            undone := by
              intro z hz hd'
              rcases k3 _ hd' with k | ⟨e, he, hid, hpart⟩
              · exact I.undone z hz k
              · obtain ⟨⟨e', g⟩, he', rfl⟩ := List.mem_map.1 he
                have hz' := hin z (by simp only [List.mem_append] at hz ⊢; tauto)
                rw [r.added] at he' hz'
                have := added_unique B (e := e') (g := g) (e' := z.1.1) (g' := z.1.2) he' hz'.1 hid
                exact hpart (this.1 ▸ hz'.2)
            calls := k1.trans I.calls
            st := I.st
            base := I.base }
      · cases hs
    | feed id =>
      unfold wstep at hs; simp only at hs
      split at hs
      · rename_i o x next hnext
        obtain ⟨p, hp, rfl⟩ := Option.map_eq_some_iff.1 hs
        have hp' := hp
        unfold step at hp'; simp only at hp'
        split at hp'
        · cases hp'
        · split at hp'
          · cases hp'
          · rename_i hnew
            cases hp'
            refine ⟨hd, cl, ql ++ [((⟨id, tp, some o⟩, w.pool.gen), x)], em, ?_⟩
            exact
              { reach := .step _ I.reach (by simp) hp
                fed := by
                  show List.filter _ (w.pool.added ++ [_]) = _
                  rw [List.filter_append, I.fed]; simp
                rest := by
                  have := I.rest
                  rw [hnext] at this
                  simp only [List.map_append, List.map_cons, List.map_nil, List.append_assoc, List.singleton_append,
                    List.cons_append, List.nil_append] at this ⊢
                  exact this
                cur := I.cur
                queue := by simp [I.queue]
                undone := by
                  intro z hz
                  have hz : z ∈ cl ++ ql ∨ z = ((⟨id, tp, some o⟩, w.pool.gen), x) := by
                    simp only [List.mem_append, List.mem_singleton] at hz ⊢; tauto
                  rcases hz with hz | rfl
                  · exact I.undone z hz
                  · intro hd'
                    obtain ⟨x, hx, hid⟩ := done_added I.reach _ hd'
                    exact hnew (List.mem_map.2 ⟨x, hx, hid⟩)
                calls := I.calls
                st := I.st
                base := I.base }
        · cases hp'
      · cases hs
    | start =>
      unfold wstep at hs; simp only at hs
      split at hs
      · rename_i e x queue hcur hq
        split at hs
        · cases hs
          have hq2 := I.queue
          rw [hq] at hq2
          cases ql with
          | nil => simp at hq2
          | cons z ql =>
            simp only [List.map_cons, List.cons.injEq, Prod.mk.injEq] at hq2
            obtain ⟨⟨h1, h2⟩, h3⟩ := hq2
            have hc := I.cur
            rw [hcur] at hc
            obtain ⟨rfl, rfl⟩ := hc
            refine ⟨hd, [z], ql, [], ?_⟩
            exact
              { reach := I.reach
                fed := by have := I.fed; simpa using this
                rest := by have := I.rest; simpa using this
                cur := by
                  refine ⟨z, rfl, h1.symm, ?_⟩
                  show [] ++ a.handle w.st x = _
                  rw [I.st, h2]; simp
                queue := h3
                undone := by simpa using I.undone
                calls := by have := I.calls; simpa using this
                st := I.st
                base := I.base }
        · cases hs
      · cases hs
    | emit =>
      unfold wstep at hs; simp only at hs
      split at hs
      · rename_i e y ys hcur
        obtain ⟨p, hp, rfl⟩ := Option.map_eq_some_iff.1 hs
        have hc := I.cur
        rw [hcur] at hc
        obtain ⟨z, rfl, rfl, hem⟩ := hc
        obtain ⟨g, hg, _, hcalls⟩ := C02_records_in_their_transaction hn I.reach hp
        have hz := hin z (by simp)
        have hgz : g = z.1.2 := by
          have h1 := hz.1
          rw [r.added] at h1 hg
          exact (added_unique B hg h1 rfl).2
        have hfr : p.added = w.pool.added ∧ p.done = w.pool.done := by
          have hp' := hp
          unfold step at hp'; simp only at hp'
          split at hp'
          · split at hp'
            · cases hp'
              unfold produce; dsimp only; split <;> exact ⟨rfl, rfl⟩
            · cases hp'
          · cases hp'
        refine ⟨hd, [z], ql, em ++ [y], ?_⟩
        exact
          { reach := .step _ I.reach (by simp) hp
            fed := by show List.filter _ p.added = _; rw [hfr.1]; exact I.fed
            rest := I.rest
            cur := ⟨z, rfl, rfl, by rw [← hem]; simp⟩
            queue := I.queue
            undone := by show ∀ z ∈ _, _ ∉ p.done; rw [hfr.2]; exact I.undone
            calls := by
              show callsU tp p.calls = _
              rw [hcalls, callsU_append, I.calls]
              simp [callsU, hz.2, hgz]
            st := by
              show a.apply w.st y = _
              rw [I.st, ← List.append_assoc, List.foldl_append (l := _ ++ em)]; rfl
            base := I.base }
      · cases hs
    | finish =>
      unfold wstep at hs; simp only at hs
      split at hs
      · rename_i e hcur
        obtain ⟨p, hp, rfl⟩ := Option.map_eq_some_iff.1 hs
        have hc := I.cur
        rw [hcur] at hc
        obtain ⟨z, rfl, rfl, hem⟩ := hc
        rw [List.append_nil] at hem
        have hfr : p.added = w.pool.added ∧ p.done = w.pool.done ++ [z.1.1.id] ∧ p.calls = w.pool.calls := by
          have hp' := hp
          unfold step at hp'; simp only at hp'
          split at hp'
          · split at hp'
            · cases hp'
              exact ⟨rfl, rfl, rfl⟩
            · cases hp'
          · cases hp'
        refine ⟨hd ++ [z], [], ql, [], ?_⟩
        exact
          { reach := .step _ I.reach (by simp) hp
            fed := by show List.filter _ p.added = _; rw [hfr.1]; have := I.fed; simpa using this
            rest := by have := I.rest; simpa using this
            cur := ⟨rfl, rfl⟩
            queue := I.queue
            undone := by
              show ∀ z ∈ _, _ ∉ p.done
              rw [hfr.2.1]
              intro z' hz' hm
              rcases List.mem_append.1 hm with hm | hm
              · exact I.undone z' (by simp at hz' ⊢; exact .inr hz') hm
              · rw [List.mem_singleton] at hm
                rw [List.nil_append] at hz'
                simp only [List.map_append, List.map_cons, List.map_nil, List.append_assoc, List.nodup_append,
                  List.singleton_append, List.nodup_cons] at hids
                exact hids.2.1.1 (hm ▸ List.mem_map.2 ⟨z', hz', rfl⟩)
            calls := by
              show callsU tp p.calls = _
              rw [hfr.2.2, I.calls, trace_append]
              simp [trace, hem]
            st := by
              show w.st = _
              rw [I.st, List.map_append, effects_append]
              simp [effects, hem]
            base := I.base }
      · cases hs
    | crash =>
      unfold wstep at hs; simp only at hs
      cases hs
      exact ⟨[], [], [], [], inv_boot _ _ (visible_of_inv hn hsrc I)⟩

end
end Verif.Exact
