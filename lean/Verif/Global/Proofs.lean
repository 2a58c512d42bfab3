import Verif.Global.Spec
import Mathlib.Data.List.Induction
/-
Invariants of `Verif/Global/Model.lean`.
-/
namespace Verif.Global

/-- The states that can be reached from a topic with these logs. -/
inductive Reach (logs : List (List Rec)) : St → Prop
  | init : Reach logs (St.init logs)
  | step {s s' : St} {l : Label} : Reach logs s → step s l = some s' → Reach logs s'

theorem reach_run {logs : List (List Rec)} {s s' : St} {ls : List Label} (hr : Reach logs s) (h : run s ls = some s') : Reach logs s' := by
  induction ls generalizing s with
  | nil => cases h; exact hr
  | cons l ls ih =>
    simp only [run, Option.bind_eq_some_iff] at h
    obtain ⟨t, h1, h2⟩ := h
    exact ih (.step hr h1) h2

/-! ### Sorted logs -/

/-- The records with `x ≤ offset < y`. -/
def win (x y : Nat) (l : List Rec) : List Rec := l.filter fun r => decide (x ≤ r.offset ∧ r.offset < y)

theorem win_split {l : List Rec} (h : Sorted l) {x y z : Nat} (hx : x ≤ y) (hz : y ≤ z) : win x z l = win x y l ++ win y z l := by
  induction l with
  | nil => rfl
  | cons r l ih =>
    have hs := List.pairwise_cons.1 h
    have ih := ih hs.2
    unfold win at ih ⊢
    by_cases hy : r.offset < y
    · rw [List.filter_cons_of_neg (p := fun r : Rec => decide (y ≤ r.offset ∧ r.offset < z)) (by simp; omega)]
      by_cases hx' : x ≤ r.offset
      · rw [List.filter_cons_of_pos (by simp; omega), List.filter_cons_of_pos (by simp; omega), ih]; rfl
      · rw [List.filter_cons_of_neg (by simp; omega), List.filter_cons_of_neg (by simp; omega), ih]
    · have : ∀ q ∈ r :: l, ¬ (q.offset < y) := by
        intro q hq
        rcases List.mem_cons.1 hq with e | e
        · subst e; exact hy
        · have := hs.1 q e; omega
      have h0 : (r :: l).filter (fun r => decide (x ≤ r.offset ∧ r.offset < y)) = [] := by
        rw [List.filter_eq_nil_iff]
        intro q hq
        have := this q hq
        simp; omega
      rw [h0, List.nil_append]
      apply List.filter_congr
      intro q hq
      have := this q hq
      simp only [decide_eq_decide]
      omega

theorem take_last {l : List Rec} (h : Sorted l) {n : Nat} {r : Rec} (hl : (l.take n).getLast? = some r) :
    l.filter (fun q => decide (q.offset < r.offset + 1)) = l.take n := by
  conv_lhs => rw [← List.take_append_drop n l]
  have h' : Sorted (l.take n ++ l.drop n) := by rw [List.take_append_drop]; exact h
  obtain ⟨h1, h2, h3⟩ := List.pairwise_append.1 h'
  obtain ⟨t, ht⟩ := List.getLast?_eq_some_iff.1 hl
  rw [List.filter_append]
  have e1 : (l.take n).filter (fun q => decide (q.offset < r.offset + 1)) = l.take n := by
    rw [List.filter_eq_self]
    intro q hq
    rw [ht] at hq h1
    rcases List.mem_append.1 hq with e | e
    · have := (List.pairwise_append.1 h1).2.2 q e r (by simp)
      simp; omega
    · cases List.mem_singleton.1 e; simp
  have e2 : (l.drop n).filter (fun q => decide (q.offset < r.offset + 1)) = [] := by
    rw [List.filter_eq_nil_iff]
    intro q hq
    have := h3 r (by rw [ht]; simp) q hq
    simp; omega
  rw [e1, e2, List.append_nil]

theorem sorted_filter {l : List Rec} (h : Sorted l) (f : Rec → Bool) : Sorted (l.filter f) := List.Pairwise.filter f h

/-- What is taken are the records up to the new position. -/
theorem take_win {t : Part} (h : Sorted t.log) (n : Nat) : (t.take n).1.log = t.log ∧ (t.take n).1.paused = t.paused ∧ t.next ≤ (t.take n).1.next ∧
    (t.take n).2 = win t.next (t.take n).1.next t.log ∧ ((t.take n).2 ≠ [] → t.paused = false) ∧
    ((t.take n).1.next = t.next ∨ ∃ q ∈ t.log, q.offset + 1 = (t.take n).1.next) := by
  unfold Part.take
  split
  · refine ⟨rfl, rfl, Nat.le_refl _, ?_, by simp, .inl rfl⟩
    dsimp only
    unfold win
    rw [eq_comm, List.filter_eq_nil_iff]
    intro q _; simp
  · rename_i hp
    split
    · rename_i r hr
      have hm : r ∈ t.ahead := List.mem_of_mem_take (List.mem_of_getLast? hr)
      unfold Part.ahead at hm
      rw [List.mem_filter] at hm
      have hle := hm.2
      simp only [decide_eq_true_eq] at hle
      refine ⟨rfl, rfl, by dsimp only; omega, ?_, fun _ => by simpa using hp, .inr ⟨r, hm.1, rfl⟩⟩
      dsimp only
      rw [← take_last (l := t.ahead) (sorted_filter h _) hr]
      unfold Part.ahead win
      rw [List.filter_filter]
      apply List.filter_congr
      intro q _
      simp only [Bool.decide_and, Bool.and_comm]
    · refine ⟨rfl, rfl, Nat.le_refl _, ?_, by simp, .inl rfl⟩
      dsimp only
      unfold win
      rw [eq_comm, List.filter_eq_nil_iff]
      intro q _; simp

/-! ### The invariant -/

/-- Where the last `ResumePartitionAt` began and what polls returned since. -/
def window (p : Nat) : List Ev → Nat × List Rec :=
  List.foldl (fun x e => match e with
    | .reset q off => if q = p then (off, []) else x
    | .polled q r => if q = p then (x.1, x.2 ++ [r]) else x
    | _ => x) (0, [])

/-- Whether the partition is paused after these events. -/
def pausedIn (p : Nat) : List Ev → Bool :=
  List.foldl (fun x e => match e with
    | .reset q _ => if q = p then false else x
    | .paused q => if q = p then true else x
    | _ => x) false

/-- The records of a partition that are still to be forwarded. -/
def batchOf (p : Nat) : Pc → List Rec
  | .each left => left.filterMap fun e => if e.1 = p then some e.2 else none
  | _ => []

/-- The invariant of a partition. -/
structure PInv (tr : List Ev) (p : Nat) (t : Part) : Prop where
  sorted : Sorted t.log
  low : (window p tr).1 ≤ t.next
  tip : (window p tr).1 = t.next ∨ ∃ q ∈ t.log, q.offset + 1 = t.next
  win : (window p tr).2 = win (window p tr).1 t.next t.log
  paused : t.paused = pausedIn p tr

/-- The invariant. -/
structure Inv (s : St) : Prop where
  parts : ∀ (p : Nat) (t : Part), s.parts[p]? = some t → PInv s.trace p t
  flow : ∀ p, polledOf p s.trace = receivedOf p s.trace ++ batchOf p s.pc

theorem inv_init {logs : List (List Rec)} (h : ∀ l ∈ logs, Sorted l) : Inv (St.init logs) := by
  constructor
  · intro p t ht
    simp only [St.init, List.getElem?_map, Option.map_eq_some_iff] at ht
    obtain ⟨l, h1, h2⟩ := ht
    subst h2
    refine ⟨h l (List.mem_of_getElem? h1), Nat.le_refl _, .inl rfl, ?_, rfl⟩
    simp only [St.init, window, List.foldl_nil, Global.win]
    rw [eq_comm, List.filter_eq_nil_iff]
    intro q _; simp
  · intro p; rfl

theorem polledOf_append (p : Nat) (a b : List Ev) : polledOf p (a ++ b) = polledOf p a ++ polledOf p b := by simp [polledOf]

theorem receivedOf_append (p : Nat) (a b : List Ev) : receivedOf p (a ++ b) = receivedOf p a ++ receivedOf p b := by simp [receivedOf]

/-- The events of a poll. -/
def pevs (b : List (Nat × Rec)) : List Ev := b.map fun e => .polled e.1 e.2

/-- The part of a batch that belongs to a partition. -/
def ofPart (p : Nat) (b : List (Nat × Rec)) : List Rec := b.filterMap fun e => if e.1 = p then some e.2 else none

theorem polledOf_pevs (p : Nat) (b : List (Nat × Rec)) : polledOf p (pevs b) = ofPart p b := by
  unfold polledOf pevs ofPart
  rw [List.filterMap_map]; rfl

theorem receivedOf_pevs (p : Nat) (b : List (Nat × Rec)) : receivedOf p (pevs b) = [] := by
  unfold receivedOf pevs
  rw [List.filterMap_map]
  simp

theorem pausedIn_pevs (p : Nat) (tr : List Ev) (b : List (Nat × Rec)) : pausedIn p (tr ++ pevs b) = pausedIn p tr := by
  unfold pausedIn
  rw [List.foldl_append]
  generalize List.foldl _ false tr = x
  induction b with
  | nil => rfl
  | cons e b ih => exact ih

theorem window_pevs (p : Nat) (tr : List Ev) (b : List (Nat × Rec)) : window p (tr ++ pevs b) = ((window p tr).1, (window p tr).2 ++ ofPart p b) := by
  unfold window
  rw [List.foldl_append]
  generalize List.foldl _ (0, []) tr = x
  induction b generalizing x with
  | nil => simp [pevs, ofPart]
  | cons e b ih =>
    by_cases he : e.1 = p
    · simp only [pevs, List.map_cons, List.foldl_cons, ofPart, List.filterMap_cons, he, if_true]
      have := ih (x.1, x.2 ++ [e.2])
      simp only [pevs, ofPart] at this
      rw [this]; simp
    · simp only [pevs, List.map_cons, List.foldl_cons, ofPart, List.filterMap_cons, he, if_false]
      have := ih x
      simp only [pevs, ofPart] at this
      exact this

theorem get_lt {α : Type} {l : List α} {j : Nat} {z : α} (h : l[j]? = some z) : j < l.length :=
  (List.getElem?_eq_some_iff.1 h).1

theorem get_set {α : Type} {l : List α} {i j : Nat} {x y z : α} (h : l[i]? = some x) (hz : (l.set i y)[j]? = some z) :
    (j = i ∧ z = y) ∨ (j ≠ i ∧ l[j]? = some z) := by
  rw [List.getElem?_set] at hz
  by_cases hj : i = j
  · have hl : i < l.length := get_lt h
    simp only [hj, if_true] at hz
    rw [if_pos (by omega)] at hz
    exact .inl ⟨hj.symm, (Option.some.inj hz).symm⟩
  · simp only [hj, if_false] at hz
    exact .inr ⟨fun e => hj e.symm, hz⟩

theorem ofPart_map (p q : Nat) (l : List Rec) : ofPart p (l.map fun r => (q, r)) = if q = p then l else [] := by
  unfold ofPart
  rw [List.filterMap_map]
  by_cases h : q = p
  · simp [h, Function.comp_def]
  · simp [h, Function.comp_def]

theorem ofPart_append (p : Nat) (a b : List (Nat × Rec)) : ofPart p (a ++ b) = ofPart p a ++ ofPart p b := by simp [ofPart]

/-- A poll keeps the invariant of every partition. -/
theorem pollAll_inv {ps : List Part} {tr : List Ev} (h : ∀ (p : Nat) (t : Part), ps[p]? = some t → PInv tr p t) (ns : List (Nat × Nat)) :
    (pollAll ps ns).1.length = ps.length ∧ (∀ (p : Nat) (t : Part), (pollAll ps ns).1[p]? = some t → PInv (tr ++ pevs (pollAll ps ns).2) p t) ∧
    ∀ p r, (p, r) ∈ (pollAll ps ns).2 → pausedIn p tr = false := by
  induction ns generalizing ps tr with
  | nil => simpa [pollAll, pevs] using h
  | cons e ns ih =>
    obtain ⟨q, n⟩ := e
    simp only [pollAll]
    split
    · exact ih h
    · rename_i t ht
      obtain ⟨g1, g2, g3, g4, g5, g6⟩ := take_win (h q t ht).sorted n
      have P := h q t ht
      have key : ∀ (p : Nat) (u : Part), (ps.set q (t.take n).1)[p]? = some u → PInv (tr ++ pevs ((t.take n).2.map fun r => (q, r))) p u := by
        intro p u hu
        rcases get_set ht hu with ⟨h1, h2⟩ | ⟨h1, h2⟩
        · subst h1 h2
          refine ⟨by rw [g1]; exact P.sorted, ?_, ?_, ?_, ?_⟩
          · rw [window_pevs]; have := P.low; dsimp only; omega
          · rw [window_pevs, g1]
            rcases g6 with e | e
            · rw [e]; exact P.tip
            · exact .inr e
          · rw [window_pevs, ofPart_map, if_pos rfl, g1]
            dsimp only
            rw [P.win, g4, ← win_split P.sorted P.low g3]
          · rw [pausedIn_pevs, g2]; exact P.paused
        · have Q := h p u h2
          have hw : window p (tr ++ pevs ((t.take n).2.map fun r => (q, r))) = window p tr := by
            rw [window_pevs, ofPart_map, if_neg (fun e => h1 e.symm)]; simp
          exact ⟨Q.sorted, by rw [hw]; exact Q.low, by rw [hw]; exact Q.tip, by rw [hw]; exact Q.win, by rw [pausedIn_pevs]; exact Q.paused⟩
      obtain ⟨i1, i2, i3⟩ := ih key
      refine ⟨by rw [i1, List.length_set], ?_, ?_⟩
      · intro p u hu
        have := i2 p u hu
        rw [List.append_assoc] at this
        have e : pevs ((t.take n).2.map fun r => (q, r)) ++ pevs (pollAll (ps.set q (t.take n).1) ns).2 =
            pevs ((t.take n).2.map (fun r => (q, r)) ++ (pollAll (ps.set q (t.take n).1) ns).2) := by simp [pevs]
        rw [e] at this
        exact this
      · intro p r hr
        rcases List.mem_append.1 hr with g | g
        · obtain ⟨r', h1, h2⟩ := List.mem_map.1 g
          cases h2
          rw [← P.paused]
          exact g5 (by intro e; rw [e] at h1; cases h1)
        · have := i3 p r g
          rw [pausedIn_pevs] at this
          exact this

/-- The steps as a relation, with the events they add. -/
inductive Tr (s : St) : List Ev → St → Prop
  | produce {p r t} (ht : s.parts[p]? = some t) (h : ∀ q ∈ t.log, q.offset < r.offset) :
      Tr s [] { s with parts := s.parts.set p { t with log := t.log ++ [r] } }
  | go (h : s.pc = .top) (hr : s.running = true) : Tr s [] { s with pc := .poll }
  | close (h : s.pc = .top) (hr : s.running = false) : Tr s [.closed] { s with pc := .done, trace := s.trace ++ [.closed] }
  | poll {ns} (h : s.pc = .poll) : Tr s (.poll :: pevs (pollAll s.parts ns).2)
      { s with parts := (pollAll s.parts ns).1, pc := .each (pollAll s.parts ns).2, trace := s.trace ++ .poll :: pevs (pollAll s.parts ns).2 }
  | forward {p r left ok} (h : s.pc = .each ((p, r) :: left)) : Tr s [.received p r ok] { s with pc := .each left, trace := s.trace ++ [.received p r ok] }
  | again (h : s.pc = .each []) : Tr s [] { s with pc := .top }
  | pause {p t} (ht : s.parts[p]? = some t) : Tr s [.paused p] { s with parts := s.parts.set p { t with paused := true }, trace := s.trace ++ [.paused p] }
  | pauseAll : Tr s ((List.range s.parts.length).map .paused)
      { s with parts := s.parts.map fun t => { t with paused := true }, trace := s.trace ++ (List.range s.parts.length).map .paused }
  | reset {p off t} (ht : s.parts[p]? = some t) :
      Tr s [.reset p off] { s with parts := s.parts.set p { t with next := off, paused := false }, trace := s.trace ++ [.reset p off] }
  | stop : Tr s [.stopped] { s with running := false, trace := s.trace ++ [.stopped] }
  | skip : Tr s [] s

theorem tr_of_step {s s' : St} {l : Label} (h : step s l = some s') : ∃ evs, Tr s evs s' := by
  cases l with
  | produce p r =>
    simp only [step] at h
    split at h
    · rename_i t ht
      split at h
      · rename_i hq; cases h; exact ⟨_, .produce ht hq⟩
      · cases h
    · cases h
  | check =>
    simp only [step] at h
    split at h
    · rename_i hp
      split at h
      · rename_i hr; cases h; exact ⟨_, .go hp hr⟩
      · rename_i hr; cases h; exact ⟨_, .close hp (by simpa using hr)⟩
    · cases h
  | poll ns =>
    simp only [step] at h
    split at h
    · rename_i hp; cases h; exact ⟨_, .poll hp⟩
    · cases h
  | forward ok =>
    simp only [step] at h
    split at h
    · rename_i hp; cases h; exact ⟨_, .forward hp⟩
    · rename_i hp; cases h; exact ⟨_, .again hp⟩
    · cases h
  | pause p =>
    simp only [step] at h
    split at h
    · rename_i ht; cases h; exact ⟨_, .pause ht⟩
    · cases h; exact ⟨_, .skip⟩
  | pauseAll => cases h; exact ⟨_, .pauseAll⟩
  | resumeAt p off =>
    simp only [step] at h
    split at h
    · rename_i ht; cases h; exact ⟨_, .reset ht⟩
    · cases h; exact ⟨_, .skip⟩
  | stop => cases h; exact ⟨_, .stop⟩

theorem tr_trace {s s' : St} {evs : List Ev} (h : Tr s evs s') : s'.trace = s.trace ++ evs := by
  cases h <;> simp

/-- Events that matter neither to `window` nor to `pausedIn`. -/
theorem pinv_quiet {tr evs : List Ev} {p : Nat} {t : Part} (P : PInv tr p t) (hw : window p (tr ++ evs) = window p tr) (hp : pausedIn p (tr ++ evs) = pausedIn p tr) :
    PInv (tr ++ evs) p t :=
  ⟨P.sorted, by rw [hw]; exact P.low, by rw [hw]; exact P.tip, by rw [hw]; exact P.win, by rw [hp]; exact P.paused⟩

theorem window_snoc (p : Nat) (tr : List Ev) (e : Ev) : window p (tr ++ [e]) = match e with
    | .reset q off => if q = p then (off, []) else window p tr
    | .polled q r => if q = p then ((window p tr).1, (window p tr).2 ++ [r]) else window p tr
    | _ => window p tr := by
  unfold window
  rw [List.foldl_append]
  rfl

theorem pausedIn_snoc (p : Nat) (tr : List Ev) (e : Ev) : pausedIn p (tr ++ [e]) = match e with
    | .reset q _ => if q = p then false else pausedIn p tr
    | .paused q => if q = p then true else pausedIn p tr
    | _ => pausedIn p tr := by
  unfold pausedIn
  rw [List.foldl_append]
  rfl

theorem range_paused (p : Nat) (tr : List Ev) (n : Nat) : window p (tr ++ (List.range n).map .paused) = window p tr ∧
    pausedIn p (tr ++ (List.range n).map .paused) = if p < n then true else pausedIn p tr := by
  induction n with
  | zero => simp
  | succ n ih =>
    rw [List.range_succ, List.map_append, ← List.append_assoc]
    simp only [List.map_cons, List.map_nil]
    rw [window_snoc, pausedIn_snoc]
    refine ⟨ih.1, ?_⟩
    dsimp only
    rw [ih.2]
    by_cases h : n = p
    · rw [if_pos h, if_pos (by omega)]
    · rw [if_neg h]
      by_cases h2 : p < n
      · rw [if_pos h2, if_pos (by omega)]
      · rw [if_neg h2, if_neg (by omega)]

theorem of_range (p n : Nat) : polledOf p ((List.range n).map .paused) = [] ∧ receivedOf p ((List.range n).map .paused) = [] := by
  constructor
  · unfold polledOf; rw [List.filterMap_map]; simp
  · unfold receivedOf; rw [List.filterMap_map]; simp

theorem inv_tr {s s' : St} {evs : List Ev} (I : Inv s) (h : Tr s evs s') : Inv s' := by
  cases h with
  | @produce p r t ht h =>
    refine ⟨?_, I.flow⟩
    intro q u hu
    rcases get_set ht hu with ⟨h1, h2⟩ | ⟨h1, h2⟩
    · subst h1 h2
      have P := I.parts q t ht
      refine ⟨?_, P.low, ?_, ?_, P.paused⟩
      · exact List.pairwise_append.2 ⟨P.sorted, by simp, fun a ha b hb => by cases List.mem_singleton.1 hb; exact h a ha⟩
      · rcases P.tip with e | ⟨x, e1, e2⟩
        · exact .inl e
        · exact .inr ⟨x, List.mem_append_left _ e1, e2⟩
      · rw [P.win]
        unfold win
        rw [List.filter_append]
        have : List.filter (fun q_1 => decide ((window q s.trace).1 ≤ q_1.offset ∧ q_1.offset < t.next)) [r] = [] := by
          rw [List.filter_eq_nil_iff]
          intro x hx
          cases List.mem_singleton.1 hx
          have hl := P.low
          rcases P.tip with e | ⟨x, e1, e2⟩
          · simp; omega
          · have := h x e1
            simp; omega
        dsimp only
        rw [this, List.append_nil]
    · exact I.parts q u h2
  | go h _ =>
    refine ⟨I.parts, ?_⟩
    intro p
    have := I.flow p
    rw [h] at this
    exact this
  | close h _ =>
    refine ⟨fun p t ht => pinv_quiet (I.parts p t ht) (by rw [window_snoc]) (by rw [pausedIn_snoc]), ?_⟩
    intro p
    have := I.flow p
    rw [h] at this
    rw [polledOf_append, receivedOf_append, this]
    simp [polledOf, receivedOf, batchOf]
  | @poll ns h =>
    have hq : ∀ (p : Nat) (t : Part), s.parts[p]? = some t → PInv (s.trace ++ [.poll]) p t := fun p t ht =>
      pinv_quiet (I.parts p t ht) (by rw [window_snoc]) (by rw [pausedIn_snoc])
    obtain ⟨_, i2, _⟩ := pollAll_inv hq ns
    have e : s.trace ++ .poll :: pevs (pollAll s.parts ns).2 = s.trace ++ [.poll] ++ pevs (pollAll s.parts ns).2 := by simp
    refine ⟨?_, ?_⟩
    · intro p t ht
      dsimp only at ht ⊢
      rw [e]; exact i2 p t ht
    · intro p
      have := I.flow p
      rw [h] at this
      dsimp only
      rw [e, polledOf_append, receivedOf_append, polledOf_append, receivedOf_append, polledOf_pevs, receivedOf_pevs, this]
      simp [polledOf, receivedOf, batchOf, ofPart]
  | @forward p r left ok h =>
    refine ⟨fun q t ht => pinv_quiet (I.parts q t ht) (by rw [window_snoc]) (by rw [pausedIn_snoc]), ?_⟩
    intro q
    have := I.flow q
    rw [h] at this
    dsimp only
    rw [polledOf_append, receivedOf_append, this]
    by_cases e : p = q <;> simp [polledOf, receivedOf, batchOf, e]
  | again h =>
    refine ⟨I.parts, ?_⟩
    intro p
    have := I.flow p
    rw [h] at this
    exact this
  | @pause p t ht =>
    refine ⟨?_, ?_⟩
    · intro q u hu
      rcases get_set ht hu with ⟨h1, h2⟩ | ⟨h1, h2⟩
      · subst h1 h2
        have P := I.parts q t ht
        refine ⟨P.sorted, ?_, ?_, ?_, ?_⟩
        · dsimp only; rw [window_snoc]; exact P.low
        · dsimp only; rw [window_snoc]; exact P.tip
        · dsimp only; rw [window_snoc]; exact P.win
        · dsimp only; rw [pausedIn_snoc]; simp
      · exact pinv_quiet (I.parts q u h2) (by rw [window_snoc]) (by rw [pausedIn_snoc]; simp [Ne.symm h1])
    · intro q
      rw [polledOf_append, receivedOf_append, I.flow q]
      simp [polledOf, receivedOf]
  | pauseAll =>
    refine ⟨?_, ?_⟩
    · intro q u hu
      simp only [List.getElem?_map, Option.map_eq_some_iff] at hu
      obtain ⟨t, h1, h2⟩ := hu
      subst h2
      have P := I.parts q t h1
      have hw := (range_paused q s.trace s.parts.length).1
      have hp := (range_paused q s.trace s.parts.length).2
      rw [if_pos (get_lt h1)] at hp
      dsimp only
      exact ⟨P.sorted, by rw [hw]; exact P.low, by rw [hw]; exact P.tip, by rw [hw]; exact P.win, by rw [hp]⟩
    · intro q
      rw [polledOf_append, receivedOf_append, I.flow q, (of_range q _).1, (of_range q _).2]
      simp
  | @reset p off t ht =>
    refine ⟨?_, ?_⟩
    · intro q u hu
      rcases get_set ht hu with ⟨h1, h2⟩ | ⟨h1, h2⟩
      · subst h1 h2
        have P := I.parts q t ht
        have hw : window q (s.trace ++ [.reset q off]) = (off, []) := by rw [window_snoc]; simp
        refine ⟨P.sorted, ?_, ?_, ?_, ?_⟩
        · dsimp only; rw [hw]; exact Nat.le_refl _
        · dsimp only; rw [hw]; exact .inl rfl
        · dsimp only; rw [hw]
          unfold win
          rw [eq_comm, List.filter_eq_nil_iff]
          intro x _; simp
        · dsimp only; rw [pausedIn_snoc]; simp
      · exact pinv_quiet (I.parts q u h2) (by rw [window_snoc]; simp [Ne.symm h1]) (by rw [pausedIn_snoc]; simp [Ne.symm h1])
    · intro q
      rw [polledOf_append, receivedOf_append, I.flow q]
      simp [polledOf, receivedOf]
  | stop =>
    refine ⟨fun q t ht => pinv_quiet (I.parts q t ht) (by rw [window_snoc]) (by rw [pausedIn_snoc]), ?_⟩
    intro q
    rw [polledOf_append, receivedOf_append, I.flow q]
    simp [polledOf, receivedOf]
  | skip => exact I

theorem inv_reach {logs : List (List Rec)} (hl : ∀ l ∈ logs, Sorted l) {s : St} (h : Reach logs s) : Inv s := by
  induction h with
  | init => exact inv_init hl
  | step _ h ih => obtain ⟨evs, h⟩ := tr_of_step h; exact inv_tr ih h

/-! ### Positions in the trace -/

theorem append_split {α : Type} {l evs a b : List α} {x : α} (h : l ++ evs = a ++ x :: b) :
    (∃ b', l = a ++ x :: b' ∧ b = b' ++ evs) ∨ ∃ a', a = l ++ a' ∧ evs = a' ++ x :: b := by
  rcases List.append_eq_append_iff.1 h with ⟨c, h1, h2⟩ | ⟨c, h1, h2⟩
  · exact .inr ⟨c, h1, h2⟩
  · cases c with
    | nil => exact .inr ⟨[], by simpa using h1.symm, by simpa using h2.symm⟩
    | cons y c =>
      simp only [List.cons_append, List.cons.injEq] at h2
      obtain ⟨h3, h4⟩ := h2
      subst h3
      exact .inl ⟨c, h1, h4⟩

/-- A record is polled only while its partition is not paused. -/
theorem polled_unpaused {logs : List (List Rec)} (hl : ∀ l ∈ logs, Sorted l) {s : St} (hr : Reach logs s) :
    ∀ (a b : List Ev) (p : Nat) (r : Rec), s.trace = a ++ .polled p r :: b → pausedIn p a = false := by
  induction hr with
  | init => intro a b p r h; simp [St.init] at h
  | @step s s' l hr h ih =>
    intro a b p r hab
    have I := inv_reach hl hr
    obtain ⟨evs, ht⟩ := tr_of_step h
    rw [tr_trace ht] at hab
    rcases append_split hab with ⟨b', h1, _⟩ | ⟨a', h1, h2⟩
    · exact ih a b' p r h1
    · have hm : Ev.polled p r ∈ evs := by rw [h2]; simp
      cases ht with
      | @poll ns hp =>
        have hmem : (p, r) ∈ (pollAll s.parts ns).2 := by
          simp only [List.mem_cons, reduceCtorEq, false_or, pevs, List.mem_map] at hm
          obtain ⟨⟨x, y⟩, g1, g2⟩ := hm
          cases g2; exact g1
        have hq := (pollAll_inv I.parts ns).2.2 p r hmem
        cases a' with
        | nil => simp at h2
        | cons e a' =>
          simp only [List.cons_append, List.cons.injEq] at h2
          obtain ⟨h3, h4⟩ := h2
          have : ∃ c, a' = pevs c := by
            refine ⟨(pollAll s.parts ns).2.take a'.length, ?_⟩
            have := congrArg (List.take a'.length) h4
            rw [List.take_left'  rfl] at this
            rw [← this]; simp [pevs]
          obtain ⟨c, hc⟩ := this
          subst hc h1 h3
          have e : s.trace ++ Ev.poll :: pevs c = s.trace ++ [.poll] ++ pevs c := by simp
          rw [e, pausedIn_pevs, pausedIn_snoc]
          exact hq
      | _ => simp at hm

/-- After `Stop` at most one poll more, and nothing after the client is closed. -/
structure Halt (s : St) : Prop where
  stopped : Ev.stopped ∈ s.trace → s.running = false
  closed : Ev.closed ∈ s.trace → s.pc = .done ∧ s.running = false
  polls : ∀ a b, s.trace = a ++ .stopped :: b → b.count .poll ≤ 1 ∧ (s.pc = .poll → .poll ∉ b)
  last : ∀ a b, s.trace = a ++ .closed :: b → Ev.stopped ∈ a ∧ .poll ∉ b ∧ ∀ p r ok, Ev.polled p r ∉ b ∧ Ev.received p r ok ∉ b
  runs : s.running = false → Ev.stopped ∈ s.trace

theorem no_closed_pevs (b : List (Nat × Rec)) : Ev.closed ∉ pevs b ∧ Ev.stopped ∉ pevs b ∧ Ev.poll ∉ pevs b := by
  simp [pevs]

theorem halt_tr {s s' : St} {evs : List Ev} (H : Halt s) (h : Tr s evs s') : Halt s' := by
  have htr := tr_trace h
  have quiet : (Ev.stopped ∉ evs ∧ Ev.closed ∉ evs) → s'.running = s.running → (s.pc = .done → s'.pc = .done) →
      ((s'.pc = .poll → s.pc = .poll ∧ Ev.poll ∉ evs) ∨ (s.running = true)) → (Ev.poll ∈ evs → s.pc = .poll ∧ evs.count .poll = 1) →
      ((∃ e ∈ evs, e = .poll ∨ ∃ p r, e = .polled p r ∨ ∃ ok, e = .received p r ok) → s.pc ≠ .done) → Halt s' := by
    intro hn hrun hdone hpoll hcount hend
    refine ⟨?_, ?_, ?_, ?_, ?_⟩
    · intro hm
      rw [htr] at hm
      rcases List.mem_append.1 hm with g | g
      · rw [hrun]; exact H.stopped g
      · exact absurd g hn.1
    · intro hm
      rw [htr] at hm
      rcases List.mem_append.1 hm with g | g
      · rw [hrun]; exact ⟨hdone (H.closed g).1, (H.closed g).2⟩
      · exact absurd g hn.2
    · intro a b hab
      rw [htr] at hab
      rcases append_split hab with ⟨b', h1, h2⟩ | ⟨a', h1, h2⟩
      · obtain ⟨g1, g2⟩ := H.polls a b' h1
        have hst : s.running = false := H.stopped (by rw [h1]; simp)
        subst h2
        constructor
        · rw [List.count_append]
          by_cases hp : Ev.poll ∈ evs
          · obtain ⟨k1, k2⟩ := hcount hp
            have := List.count_eq_zero.2 (g2 k1)
            omega
          · rw [List.count_eq_zero.2 hp]; exact g1
        · intro hp
          rcases hpoll with k | k
          · obtain ⟨k1, k2⟩ := k hp
            simp only [List.mem_append, not_or]
            exact ⟨g2 k1, k2⟩
          · rw [hst] at k; cases k
      · exact absurd (by rw [h2]; simp) hn.1
    · intro a b hab
      rw [htr] at hab
      rcases append_split hab with ⟨b', h1, h2⟩ | ⟨a', h1, h2⟩
      · obtain ⟨g1, g2, g3⟩ := H.last a b' h1
        have hd := (H.closed (by rw [h1]; simp)).1
        subst h2
        simp only [List.mem_append, not_or]
        refine ⟨g1, ⟨g2, fun e => hend ⟨_, e, .inl rfl⟩ hd⟩, ?_⟩
        intro p r ok
        exact ⟨⟨(g3 p r ok).1, fun e => hend ⟨_, e, .inr ⟨p, r, .inl rfl⟩⟩ hd⟩, ⟨(g3 p r ok).2, fun e => hend ⟨_, e, .inr ⟨p, r, .inr ⟨ok, rfl⟩⟩⟩ hd⟩⟩
      · exact absurd (by rw [h2]; simp) hn.2
    · intro hr
      rw [hrun] at hr
      rw [htr]; exact List.mem_append_left _ (H.runs hr)
  cases h with
  | produce => exact quiet (by simp) rfl id (.inl fun e => ⟨e, by simp⟩) (by simp) (by simp)
  | go h hr => exact quiet (by simp) rfl (by rw [h]; simp) (.inr hr) (by simp) (by simp)
  | close h hr =>
    have hst := H.runs hr
    refine ⟨fun _ => hr, fun _ => ⟨rfl, hr⟩, ?_, ?_, fun _ => by dsimp only; exact List.mem_append_left _ hst⟩
    · intro a b hab
      rcases append_split hab with ⟨b', h1, h2⟩ | ⟨a', h1, h2⟩
      · subst h2
        refine ⟨?_, by simp⟩
        rw [List.count_append]
        have := (H.polls a b' h1).1
        simpa using this
      · have : Ev.stopped ∈ [Ev.closed] := by rw [h2]; simp
        simp at this
    · intro a b hab
      rcases append_split hab with ⟨b', h1, h2⟩ | ⟨a', h1, h2⟩
      · have := (H.closed (by rw [h1]; simp)).1
        rw [h] at this; cases this
      · have hl := congrArg List.length h2
        simp at hl
        have ha : a' = [] := List.length_eq_zero_iff.1 (by omega)
        have hb : b = [] := List.length_eq_zero_iff.1 (by omega)
        subst ha hb
        rw [List.append_nil] at h1
        rw [h1]
        exact ⟨hst, by simp, by simp⟩
  | @poll ns h =>
    have := no_closed_pevs (pollAll s.parts ns).2
    exact quiet (by simp [this.1, this.2.1]) rfl (by rw [h]; simp) (.inl (by simp)) (fun _ => ⟨h, by simp [List.count_eq_zero.2 this.2.2]⟩) (by rw [h]; simp)
  | forward h => exact quiet (by simp) rfl (by rw [h]; simp) (.inl (by simp)) (by simp) (by rw [h]; simp)
  | again h => exact quiet (by simp) rfl (by rw [h]; simp) (.inl (by simp)) (by simp) (by simp)
  | pause => exact quiet (by simp) rfl id (.inl fun e => ⟨e, by simp⟩) (by simp) (by simp)
  | pauseAll => exact quiet (by simp) rfl id (.inl fun e => ⟨e, by simp⟩) (by simp) (by simp)
  | reset => exact quiet (by simp) rfl id (.inl fun e => ⟨e, by simp⟩) (by simp) (by simp)
  | skip => exact quiet (by simp) rfl id (.inl fun e => ⟨e, by simp⟩) (by simp) (by simp)
  | stop =>
    refine ⟨fun _ => rfl, ?_, ?_, ?_, fun _ => by simp⟩
    · intro hm
      simp only [List.mem_append, List.mem_singleton, reduceCtorEq, or_false] at hm
      exact ⟨(H.closed hm).1, rfl⟩
    · intro a b hab
      rcases append_split hab with ⟨b', h1, h2⟩ | ⟨a', h1, h2⟩
      · subst h2
        have := H.polls a b' h1
        rw [List.count_append]
        refine ⟨by simpa using this.1, ?_⟩
        intro hp
        have := this.2 hp
        simpa using this
      · have hl := congrArg List.length h2
        simp at hl
        have hb : b = [] := List.length_eq_zero_iff.1 (by omega)
        subst hb; simp
    · intro a b hab
      rcases append_split hab with ⟨b', h1, h2⟩ | ⟨a', h1, h2⟩
      · subst h2
        have := H.last a b' h1
        simpa using this
      · have : Ev.closed ∈ [Ev.stopped] := by rw [h2]; simp
        simp at this

theorem halt_reach {logs : List (List Rec)} {s : St} (h : Reach logs s) : Halt s := by
  induction h with
  | init => constructor <;> simp [St.init]
  | step _ h ih => obtain ⟨evs, h⟩ := tr_of_step h; exact halt_tr ih h

end Verif.Global
