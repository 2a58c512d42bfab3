import Verif.Observe.Spec
import Mathlib.Data.List.Induction
/-
Invariants of `Verif/Observe/Model.lean`.
-/
namespace Verif.Observe

/-- The states that can be reached. -/
inductive Reach : St → Prop
  | init : Reach St.init
  | step {s s' : St} {l : Label} : Reach s → step s l = some s' → Reach s'

theorem reach_run {s s' : St} {ls : List Label} (hr : Reach s) (h : run s ls = some s') : Reach s' := by
  induction ls generalizing s with
  | nil => cases h; exact hr
  | cons l ls ih =>
    simp only [run, Option.bind_eq_some_iff] at h
    obtain ⟨t, h1, h2⟩ := h
    exact ih (.step hr h1) h2

/-- The steps as a relation. -/
inductive Tr (s : St) : St → Prop
  | assign {ps} (h : s.op = none) : Tr s { s with op := some (.assign ps ps) }
  | revoke {ps} (h : s.op = none) : Tr s { s with op := some (.will ps ps) }
  | make {p rest all} (h : s.op = some (.assign (p :: rest) all)) (hw : s.worker p = none) :
      Tr s { s with op := some (.assign rest all), map := s.map ++ [(p, s.wks.length)], wks := s.wks ++ [⟨p, .new, false, 0, false⟩],
                    trace := s.trace ++ [.created s.wks.length p] }
  | keep {p rest all w} (h : s.op = some (.assign (p :: rest) all)) (hw : s.worker p = some w) : Tr s { s with op := some (.assign rest all) }
  | made {all} (h : s.op = some (.assign [] all)) : Tr s { s with op := some (.tellAssigned all) }
  | tell {p left} (h : s.op = some (.tellAssigned (p :: left))) : Tr s { s with op := some (.tellAssigned left), trace := s.trace ++ [.assigned p] }
  | told (h : s.op = some (.tellAssigned [])) : Tr s { s with op := none }
  | will {p rest all} (h : s.op = some (.will (p :: rest) all)) : Tr s { s with op := some (.cut p rest all), trace := s.trace ++ [.will p] }
  | willEnd {all} (h : s.op = some (.will [] all)) : Tr s { s with op := some (.tellRevoked all) }
  | cut {p rest all w k} (h : s.op = some (.cut p rest all)) (hw : s.worker p = some w) (hk : s.wks[w]? = some k) :
      Tr s { s with op := some (.will rest all), map := s.map.filter (fun e => e.1 ≠ p), wks := s.wks.set w { k with halted := true }, trace := s.trace ++ [.cut w p] }
  | cutNone {p rest all} (h : s.op = some (.cut p rest all)) (hw : s.worker p = none) : Tr s { s with op := some (.will rest all) }
  | untell {p left} (h : s.op = some (.tellRevoked (p :: left))) : Tr s { s with op := some (.tellRevoked left), trace := s.trace ++ [.revoked p] }
  | untold (h : s.op = some (.tellRevoked [])) : Tr s { s with op := none }
  | fetch {p} (h : s.op = none) (hw : s.worker p ≠ none) (hp : p ∉ s.paused) : Tr s { s with trace := s.trace ++ [.fetched p] }
  | wk {l w k k' evs} (hl : l.wk = some w) (hk : s.wks[w]? = some k) (hs : stepWk k w l = some (k', evs)) :
      Tr s { s with wks := s.wks.set w k', paused := pausing l k.part s.paused, trace := s.trace ++ evs }

theorem tr_of_step {s s' : St} {l : Label} (h : step s l = some s') : Tr s s' := by
  have keyw : ∀ w, l.wk = some w → (match s.wks[w]? with
      | some k =>
        match stepWk k w l with
        | some (k', evs) => some { s with wks := s.wks.set w k', paused := pausing l k.part s.paused, trace := s.trace ++ evs }
        | none => none
      | none => none) = some s' → Tr s s' := by
    intro w hl h
    split at h
    · rename_i hk
      split at h
      · rename_i hs
        cases h
        exact .wk hl hk hs
      · cases h
    · cases h
  cases l with
  | assign ps =>
    simp only [step] at h
    split at h
    · rename_i ho; cases h; exact .assign ho
    · cases h
  | revoke ps =>
    simp only [step] at h
    split at h
    · rename_i ho; cases h; exact .revoke ho
    · cases h
  | next =>
    simp only [step] at h
    split at h
    · rename_i o ho
      cases o with
      | assign rest all =>
        cases rest with
        | nil => cases h; exact .made ho
        | cons p rest =>
          simp only [stepOp] at h
          split at h
          · rename_i hw; cases h; exact .make ho hw
          · rename_i hw; cases h; exact .keep ho hw
      | tellAssigned left =>
        cases left with
        | nil => cases h; exact .told ho
        | cons p left => cases h; exact .tell ho
      | will rest all =>
        cases rest with
        | nil => cases h; exact .willEnd ho
        | cons p rest => cases h; exact .will ho
      | cut p rest all =>
        simp only [stepOp] at h
        split at h
        · rename_i hw
          split at h
          · rename_i hk; cases h; exact .cut ho hw hk
          · cases h
        · rename_i hw; cases h; exact .cutNone ho hw
      | tellRevoked left =>
        cases left with
        | nil => cases h; exact .untold ho
        | cons p left => cases h; exact .untell ho
    · cases h
  | fetch p =>
    simp only [step] at h
    split at h
    · rename_i hq; cases h; exact .fetch hq.1 hq.2.1 hq.2.2
    · cases h
  | pause w => exact keyw w rfl h
  | sync w => exact keyw w rfl h
  | resume w => exact keyw w rfl h
  | activate w => exact keyw w rfl h
  | grant w => exact keyw w rfl h
  | start w => exact keyw w rfl h
  | finish w => exact keyw w rfl h
  | stop w => exact keyw w rfl h

/-! ### Lists -/

theorem get_lt {α : Type} {l : List α} {j : Nat} {z : α} (h : l[j]? = some z) : j < l.length :=
  (List.getElem?_eq_some_iff.1 h).1

theorem get_set {α : Type} {l : List α} {i j : Nat} {x y z : α} (h : l[i]? = some x) (hz : (l.set i y)[j]? = some z) :
    (j = i ∧ z = y) ∨ (j ≠ i ∧ l[j]? = some z) := by
  rw [List.getElem?_set] at hz
  by_cases hj : i = j
  · have hl : i < l.length := get_lt h
    simp only [hj, if_true] at hz
    rw [if_pos (by omega)] at hz
    exact .inl ⟨hj.symm, (Option.some.inj hz).symm⟩
  · simp only [hj, if_false] at hz
    exact .inr ⟨fun e => hj e.symm, hz⟩

theorem get_append {α : Type} {l : List α} {j : Nat} {y z : α} (hz : (l ++ [y])[j]? = some z) :
    (j = l.length ∧ z = y) ∨ l[j]? = some z := by
  rw [List.getElem?_append] at hz
  split at hz
  · exact .inr hz
  · rename_i hl
    have : j - l.length = 0 := by
      by_contra hne
      rw [List.getElem?_eq_none (by simp; omega)] at hz
      cases hz
    rw [this] at hz
    simp only [List.getElem?_cons_zero, Option.some.injEq] at hz
    exact .inl ⟨by omega, hz.symm⟩

theorem get_set_ne {α : Type} {l : List α} {i j : Nat} {y : α} (h : j ≠ i) : (l.set i y)[j]? = l[j]? := by
  rw [List.getElem?_set, if_neg (fun e => h e.symm)]

theorem get_set_eq {α : Type} {l : List α} {i : Nat} {x y : α} (h : l[i]? = some x) : (l.set i y)[i]? = some y := by
  rw [List.getElem?_set, if_pos rfl, if_pos (get_lt h)]

theorem get_app_lt {α : Type} {l : List α} {j : Nat} {y z : α} (h : l[j]? = some z) : (l ++ [y])[j]? = some z := by
  rw [List.getElem?_append_left (get_lt h)]; exact h

theorem worker_mem {s : St} {p w : Nat} (h : s.worker p = some w) : (p, w) ∈ s.map := by
  unfold St.worker at h
  simp only [Option.map_eq_some_iff] at h
  obtain ⟨⟨a, b⟩, h1, h2⟩ := h
  have := List.find?_some h1
  simp only [decide_eq_true_eq] at this h2
  subst this h2
  exact List.mem_of_find?_eq_some h1

theorem worker_none {s : St} {p : Nat} (h : s.worker p = none) (w : Nat) : (p, w) ∉ s.map := by
  unfold St.worker at h
  simp only [Option.map_eq_none_iff, List.find?_eq_none] at h
  intro hp
  exact h (p, w) hp (by simp)

theorem worker_some {s : St} {p w : Nat} (h : (p, w) ∈ s.map) : ∃ v, s.worker p = some v := by
  cases hw : s.worker p with
  | some v => exact ⟨v, rfl⟩
  | none => exact absurd h (worker_none hw w)

/-! ### What the state says about the trace -/

/-- How far a worker is, as a number. -/
def Stage.num : Stage → Nat
  | .new => 0 | .syncing => 1 | .synced => 2 | .resumed => 3 | .active => 4 | .ended => 5

/-- What is in the trace about worker `w`. -/
structure About (tr : List Ev) (w : Nat) (k : Wk) : Prop where
  created : ∀ p, Ev.created w p ∈ tr ↔ p = k.part
  cut : ∀ p, Ev.cut w p ∈ tr ↔ (p = k.part ∧ k.halted = true)
  paused : Ev.paused w k.part ∈ tr ↔ 1 ≤ k.stage.num
  synced : Ev.synced w k.part ∈ tr ↔ 2 ≤ k.stage.num
  activated : Ev.activated w k.part ∈ tr ↔ 4 ≤ k.stage.num
  grants : tr.count (.grant w k.part) = tr.count (.started w k.part) + k.granted
  starts : tr.count (.started w k.part) = tr.count (.finished w k.part) + (if k.busy then 1 else 0)

/-- What is left of the revocation callbacks for `p`. -/
def owed (p : Nat) : Option Op → Nat
  | some (.will rest all) => all.count p - rest.count p
  | some (.cut _ rest all) => all.count p - rest.count p
  | some (.tellRevoked left) => left.count p
  | _ => 0

/-- Whether the worker of `p` is about to be told to stop. -/
def cutting (p : Nat) : Option Op → Nat
  | some (.cut q _ _) => if q = p then 1 else 0
  | _ => 0

/-- What the operation under way has done so far. -/
def opOk (s : St) : Option Op → Prop
  | some (.assign rest all) => ∀ p ∈ all, p ∈ rest ∨ s.worker p ≠ none
  | some (.tellAssigned left) => ∀ p ∈ left, s.worker p ≠ none
  | some (.will rest all) => rest <:+ all ∧ ∀ p ∈ all, p ∈ rest ∨ s.worker p = none
  | some (.cut q rest all) => q :: rest <:+ all ∧ ∀ p ∈ all, p = q ∨ p ∈ rest ∨ s.worker p = none
  | some (.tellRevoked left) => ∀ p ∈ left, s.worker p = none
  | none => True

structure Inv (s : St) : Prop where
  map : ∀ p w, (p, w) ∈ s.map → ∃ k : Wk, s.wks[w]? = some k ∧ k.part = p ∧ k.halted = false
  live : ∀ (w : Nat) (k : Wk), s.wks[w]? = some k → k.halted = false → (k.part, w) ∈ s.map
  one : ∀ p v w, (p, v) ∈ s.map → (p, w) ∈ s.map → v = w
  about : ∀ (w : Nat) (k : Wk), s.wks[w]? = some k → About s.trace w k
  fresh : ∀ w p, s.wks.length ≤ w → Ev.created w p ∉ s.trace ∧ Ev.cut w p ∉ s.trace ∧ Ev.paused w p ∉ s.trace ∧ Ev.synced w p ∉ s.trace ∧
    Ev.activated w p ∉ s.trace ∧ Ev.grant w p ∉ s.trace ∧ Ev.started w p ∉ s.trace ∧ Ev.finished w p ∉ s.trace
  op : opOk s s.op
  told : ∀ p, s.trace.count (.will p) = s.trace.count (.revoked p) + owed p s.op
  cuts : ∀ p, cuts p s.trace + cutting p s.op ≤ s.trace.count (.will p)
  paused : ∀ p, p ∈ s.paused ↔ pausedIn p s.trace = true

theorem inv_init : Inv St.init := by
  constructor <;> simp [St.init, opOk, owed, cutting, cuts, pausedIn]

theorem pausedIn_snoc (p : Nat) (a : List Ev) (e : Ev) : pausedIn p (a ++ [e]) = (match e with
    | .paused _ q => if q = p then true else pausedIn p a
    | .resumed _ q => if q = p then false else pausedIn p a
    | _ => pausedIn p a) := by
  unfold pausedIn
  rw [List.foldl_append]
  rfl

theorem cuts_append (p : Nat) (a b : List Ev) : cuts p (a ++ b) = cuts p a + cuts p b := List.countP_append

/-- Events that say nothing about workers leave `About` alone. -/
theorem about_append {tr : List Ev} {w : Nat} {k : Wk} (h : About tr w k) {evs : List Ev}
    (hq : ∀ p, Ev.created w p ∉ evs ∧ Ev.cut w p ∉ evs ∧ Ev.paused w p ∉ evs ∧ Ev.synced w p ∉ evs ∧ Ev.activated w p ∉ evs ∧ Ev.grant w p ∉ evs ∧
      Ev.started w p ∉ evs ∧ Ev.finished w p ∉ evs) : About (tr ++ evs) w k := by
  have c1 : evs.count (.grant w k.part) = 0 := List.count_eq_zero.2 (hq k.part).2.2.2.2.2.1
  have c2 : evs.count (.started w k.part) = 0 := List.count_eq_zero.2 (hq k.part).2.2.2.2.2.2.1
  have c3 : evs.count (.finished w k.part) = 0 := List.count_eq_zero.2 (hq k.part).2.2.2.2.2.2.2
  constructor
  · intro p; rw [List.mem_append, h.created p]; simp [(hq p).1]
  · intro p; rw [List.mem_append, h.cut p]; simp [(hq p).2.1]
  · rw [List.mem_append, h.paused]; simp [(hq k.part).2.2.1]
  · rw [List.mem_append, h.synced]; simp [(hq k.part).2.2.2.1]
  · rw [List.mem_append, h.activated]; simp [(hq k.part).2.2.2.2.1]
  · rw [List.count_append, List.count_append, c1, c2, h.grants]; omega
  · rw [List.count_append, List.count_append, c3, c2, h.starts]; omega

/-- A step of a worker keeps `About` for it. -/
theorem about_wk {tr : List Ev} {w : Nat} {k k' : Wk} {l : Label} {evs : List Ev} (h : About tr w k) (hs : stepWk k w l = some (k', evs)) :
    About (tr ++ evs) w k' ∧ k'.part = k.part ∧ k'.halted = k.halted := by
  cases l <;> simp only [stepWk] at hs
  all_goals first | cases hs | skip
  all_goals
    split at hs
    · rename_i hq
      cases hs
      refine ⟨?_, rfl, rfl⟩
      constructor
      · intro p; have := h.created p; simp [this]
      · intro p; have := h.cut p; simp [this]
      · have := h.paused; simp_all [Stage.num]
      · have := h.synced; simp_all [Stage.num]
      · have := h.activated; simp_all [Stage.num]
      · have := h.grants; simp_all [List.count_append] <;> omega
      · have := h.starts; simp_all [List.count_append]
    · cases hs

/-- A callback, or a fetch. -/
def Ev.plain : Ev → Prop
  | .assigned _ | .will _ | .revoked _ | .fetched _ => True
  | _ => False

theorem plain_ev {evs : List Ev} (h : ∀ e ∈ evs, e.plain) (w : Nat) (p : Nat) : Ev.created w p ∉ evs ∧ Ev.cut w p ∉ evs ∧ Ev.paused w p ∉ evs ∧ Ev.synced w p ∉ evs ∧
    Ev.activated w p ∉ evs ∧ Ev.grant w p ∉ evs ∧ Ev.started w p ∉ evs ∧ Ev.finished w p ∉ evs :=
  ⟨fun e => h _ e, fun e => h _ e, fun e => h _ e, fun e => h _ e, fun e => h _ e, fun e => h _ e, fun e => h _ e, fun e => h _ e⟩

theorem fresh_append {tr evs : List Ev} {w p : Nat} (h : Ev.created w p ∉ tr ∧ Ev.cut w p ∉ tr ∧ Ev.paused w p ∉ tr ∧ Ev.synced w p ∉ tr ∧
      Ev.activated w p ∉ tr ∧ Ev.grant w p ∉ tr ∧ Ev.started w p ∉ tr ∧ Ev.finished w p ∉ tr)
    (h' : Ev.created w p ∉ evs ∧ Ev.cut w p ∉ evs ∧ Ev.paused w p ∉ evs ∧ Ev.synced w p ∉ evs ∧
      Ev.activated w p ∉ evs ∧ Ev.grant w p ∉ evs ∧ Ev.started w p ∉ evs ∧ Ev.finished w p ∉ evs) :
    Ev.created w p ∉ tr ++ evs ∧ Ev.cut w p ∉ tr ++ evs ∧ Ev.paused w p ∉ tr ++ evs ∧ Ev.synced w p ∉ tr ++ evs ∧
      Ev.activated w p ∉ tr ++ evs ∧ Ev.grant w p ∉ tr ++ evs ∧ Ev.started w p ∉ tr ++ evs ∧ Ev.finished w p ∉ tr ++ evs := by
  obtain ⟨a1, a2, a3, a4, a5, a6, a7, a8⟩ := h
  obtain ⟨b1, b2, b3, b4, b5, b6, b7, b8⟩ := h'
  simp only [List.mem_append, not_or]
  exact ⟨⟨a1, b1⟩, ⟨a2, b2⟩, ⟨a3, b3⟩, ⟨a4, b4⟩, ⟨a5, b5⟩, ⟨a6, b6⟩, ⟨a7, b7⟩, ⟨a8, b8⟩⟩

/-- Steps of the operation that change no worker. -/
theorem inv_op {s : St} (I : Inv s) {o : Option Op} {evs : List Ev} (hp : ∀ e ∈ evs, e.plain) (ho : opOk s o)
    (ht : ∀ p, evs.count (.will p) + owed p s.op = evs.count (.revoked p) + owed p o) (hc : ∀ p, cutting p o ≤ evs.count (.will p) + cutting p s.op) :
    Inv { s with op := o, trace := s.trace ++ evs } := by
  refine ⟨I.map, I.live, I.one, ?_, ?_, ?_, ?_, ?_, ?_⟩
  · intro w k hk; exact about_append (I.about w k hk) (fun p => plain_ev hp w p)
  · intro w p hw; exact fresh_append (I.fresh w p hw) (plain_ev hp w p)
  · cases o with
    | none => trivial
    | some o => cases o <;> exact ho
  · intro p
    have h1 := I.told p
    have h2 := ht p
    dsimp only
    rw [List.count_append, List.count_append]
    omega
  · intro p
    have h1 := I.cuts p
    have h2 := hc p
    have h3 : cuts p evs = 0 := by
      unfold cuts
      rw [List.countP_eq_zero]
      intro e he
      have := hp e he
      cases e <;> first | exact absurd this id | simp
    dsimp only
    rw [List.count_append, cuts_append, h3]
    omega
  · intro p
    have h1 := I.paused p
    have h2 : pausedIn p (s.trace ++ evs) = pausedIn p s.trace := by
      clear ht hc
      induction evs using List.reverseRecOn with
      | nil => rw [List.append_nil]
      | append_singleton evs e ih =>
        rw [← List.append_assoc, pausedIn_snoc, ← ih (fun e he => hp e (by simp [he]))]
        have := hp e (by simp)
        cases e <;> first | exact absurd this id | rfl
    dsimp only
    rw [h2]
    exact h1

theorem owed_le {rest all : List Nat} (h : rest <:+ all) (p : Nat) : rest.count p ≤ all.count p := h.sublist.count_le p

theorem worker_filter {s : St} {q : Nat} {o : Option Op} {wks : List Wk} {tr : List Ev} (p : Nat) (h : p = q ∨ s.worker p = none) :
    St.worker { s with op := o, map := s.map.filter (fun e => e.1 ≠ q), wks := wks, trace := tr } p = none := by
  unfold St.worker at h ⊢
  dsimp only
  simp only [Option.map_eq_none_iff, List.find?_eq_none] at h ⊢
  intro e he
  simp only [List.mem_filter, decide_eq_true_eq] at he
  rcases h with h | h
  · subst h; simp [he.2]
  · exact h e he.1

theorem worker_append {s : St} {q w : Nat} {o : Option Op} {wks : List Wk} {tr : List Ev} (p : Nat) (h : p = q ∨ s.worker p ≠ none) :
    St.worker { s with op := o, map := s.map ++ [(q, w)], wks := wks, trace := tr } p ≠ none := by
  intro hn
  have h2 := fun v => worker_none hn v
  rcases h with h | h
  · subst h; exact h2 w (by simp)
  · obtain ⟨v, hv⟩ := Option.ne_none_iff_exists'.1 h
    exact h2 v (by simp [worker_mem hv])

theorem inv_tr {s s' : St} (I : Inv s) (h : Tr s s') : Inv s' := by
  have hop := I.op
  cases h with
  | @assign ps h =>
    have := inv_op (evs := []) (o := some (.assign ps ps)) I (by simp) (fun p hp => .inl hp) (by simp [h, owed]) (by simp [cutting])
    rw [List.append_nil] at this; exact this
  | @revoke ps h =>
    have := inv_op (evs := []) (o := some (.will ps ps)) I (by simp) ⟨List.suffix_refl _, fun p hp => .inl hp⟩ (by simp [h, owed]) (by simp [cutting])
    rw [List.append_nil] at this; exact this
  | @make p rest all h hw =>
    rw [h] at hop
    refine ⟨?_, ?_, ?_, ?_, ?_, ?_, ?_, ?_, ?_⟩
    · intro q w hq
      rcases List.mem_append.1 hq with g | g
      · obtain ⟨k, h1, h2⟩ := I.map q w g
        exact ⟨k, get_app_lt h1, h2⟩
      · cases List.mem_singleton.1 g
        exact ⟨⟨p, .new, false, 0, false⟩, by simp, rfl, rfl⟩
    · intro w k hk hh
      rcases get_append hk with ⟨h1, h2⟩ | g
      · subst h1 h2; simp
      · exact List.mem_append_left _ (I.live w k g hh)
    · intro q v w hv hw'
      rcases List.mem_append.1 hv with g | g <;> rcases List.mem_append.1 hw' with g' | g'
      · exact I.one q v w g g'
      · cases List.mem_singleton.1 g'; exact absurd g (worker_none hw _)
      · cases List.mem_singleton.1 g; exact absurd g' (worker_none hw _)
      · cases List.mem_singleton.1 g; cases List.mem_singleton.1 g'; rfl
    · intro w k hk
      rcases get_append hk with ⟨h1, h2⟩ | g
      · subst h1 h2
        have hf := fun q => I.fresh s.wks.length q (Nat.le_refl _)
        constructor
        · intro q; simp [(hf q).1]
        · intro q; simp [(hf q).2.1]
        · simp [(hf p).2.2.1, Stage.num]
        · simp [(hf p).2.2.2.1, Stage.num]
        · simp [(hf p).2.2.2.2.1, Stage.num]
        · simp [List.count_eq_zero.2 (hf p).2.2.2.2.2.1, List.count_eq_zero.2 (hf p).2.2.2.2.2.2.1]
        · simp [List.count_eq_zero.2 (hf p).2.2.2.2.2.2.2, List.count_eq_zero.2 (hf p).2.2.2.2.2.2.1]
      · have : s.wks.length ≠ w := by have := get_lt g; omega
        exact about_append (I.about w k g) (by intro q; simp; intro e; exact absurd e.symm this)
    · intro w q hw'
      simp only [List.length_append, List.length_singleton] at hw'
      exact fresh_append (I.fresh w q (by omega)) (by simp; intro e; omega)
    · intro q hq
      rcases hop q hq with g | g
      · rcases List.mem_cons.1 g with e | e
        · exact .inr (worker_append q (.inl e))
        · exact .inl e
      · exact .inr (worker_append q (.inr g))
    · intro q
      have := I.told q
      rw [h] at this
      simpa [List.count_append, owed] using this
    · intro q
      have := I.cuts q
      rw [h] at this
      simpa [List.count_append, cuts_append, cutting, cuts] using this
    · intro q
      have := I.paused q
      dsimp only
      rw [pausedIn_snoc]
      exact this
  | @keep p rest all w h hw =>
    rw [h] at hop
    have := inv_op (evs := []) (o := some (.assign rest all)) I (by simp) (by
      intro q hq
      rcases hop q hq with g | g
      · rcases List.mem_cons.1 g with e | e
        · subst e; exact .inr (by rw [hw]; simp)
        · exact .inl e
      · exact .inr g) (by simp [h, owed]) (by simp [cutting])
    rw [List.append_nil] at this; exact this
  | @made all h =>
    rw [h] at hop
    have := inv_op (evs := []) (o := some (.tellAssigned all)) I (by simp) (by
      intro q hq
      rcases hop q hq with g | g
      · cases g
      · exact g) (by simp [h, owed]) (by simp [cutting])
    rw [List.append_nil] at this; exact this
  | @tell p left h =>
    rw [h] at hop
    exact inv_op (o := some (.tellAssigned left)) I (by simp [Ev.plain]) (fun q hq => hop q (by simp [hq])) (by simp [h, owed]) (by simp [cutting])
  | told h =>
    have := inv_op (evs := []) (o := none) I (by simp) trivial (by simp [h, owed]) (by simp [cutting])
    rw [List.append_nil] at this; exact this
  | @will p rest all h =>
    rw [h] at hop
    refine inv_op (o := some (.cut p rest all)) I (by simp [Ev.plain]) ⟨hop.1, ?_⟩ ?_ ?_
    · intro q hq
      rcases hop.2 q hq with g | g
      · rcases List.mem_cons.1 g with e | e
        · exact .inl e
        · exact .inr (.inl e)
      · exact .inr (.inr g)
    · intro q
      have := owed_le hop.1 q
      rw [h]
      simp only [owed, List.count_cons, List.count_nil] at this ⊢
      by_cases e : p = q
      · subst e; simp at this ⊢; omega
      · simp [e] at this ⊢
    · intro q
      simp only [cutting, List.count_cons, List.count_nil]
      by_cases e : p = q
      · subst e; simp
      · simp [e]
  | @willEnd all h =>
    rw [h] at hop
    have := inv_op (evs := []) (o := some (.tellRevoked all)) I (by simp) (by
      intro q hq
      rcases hop.2 q hq with g | g
      · cases g
      · exact g) (by simp [h, owed]) (by simp [cutting])
    rw [List.append_nil] at this; exact this
  | @cut p rest all w k h hw hk =>
    rw [h] at hop
    obtain ⟨k0, g1, g2, g3⟩ := I.map p w (worker_mem hw)
    rw [hk] at g1; cases g1
    refine ⟨?_, ?_, ?_, ?_, ?_, ?_, ?_, ?_, ?_⟩
    · intro q v hq
      dsimp only at hq ⊢
      simp only [List.mem_filter, decide_eq_true_eq] at hq
      obtain ⟨d, h1, h2, h3⟩ := I.map q v hq.1
      have : v ≠ w := by
        intro e
        subst e
        rw [hk] at h1; cases h1
        exact hq.2 (by rw [← h2, g2])
      exact ⟨d, by rw [get_set_ne this]; exact h1, h2, h3⟩
    · intro v d hv hh
      dsimp only at hv ⊢
      rcases get_set hk hv with ⟨h1, h2⟩ | ⟨h1, h2⟩
      · subst h2; cases hh
      · have hm := I.live v d h2 hh
        simp only [List.mem_filter, decide_eq_true_eq]
        refine ⟨hm, ?_⟩
        intro e
        rw [e] at hm
        exact h1 (I.one p v w hm (worker_mem hw))
    · intro q v u hv hu
      simp only [List.mem_filter] at hv hu
      exact I.one q v u hv.1 hu.1
    · intro v d hv
      dsimp only at hv ⊢
      rcases get_set hk hv with ⟨h1, h2⟩ | ⟨h1, h2⟩
      · subst h1 h2
        have A := I.about v k hk
        constructor
        · intro q; simp [A.created q]
        · intro q; simp [A.cut q, g2, g3]
        · simp [A.paused]
        · simp [A.synced]
        · simp [A.activated]
        · simp [List.count_append, A.grants]
        · simp [List.count_append, A.starts]
      · exact about_append (I.about v d h2) (by intro q; simp; intro e; exact absurd e h1)
    · intro v q hv
      dsimp only at hv
      rw [List.length_set] at hv
      exact fresh_append (I.fresh v q hv) (by simp; intro e; have := get_lt hk; omega)
    · refine ⟨(List.suffix_cons p rest).trans hop.1, ?_⟩
      intro q hq
      rcases hop.2 q hq with g | g | g
      · exact .inr (worker_filter q (.inl g))
      · exact .inl g
      · exact .inr (worker_filter q (.inr g))
    · intro q
      have := I.told q
      rw [h] at this
      simpa [List.count_append, owed] using this
    · intro q
      have := I.cuts q
      rw [h] at this
      simp only [cutting, cuts_append, List.count_append] at this ⊢
      have e1 : List.count (Ev.will q) [Ev.cut w p] = 0 := by simp
      have e2 : cuts q [Ev.cut w p] = if p = q then 1 else 0 := by
        by_cases e : p = q <;> simp [cuts, e]
      rw [e1, e2]
      omega
    · intro q
      have := I.paused q
      dsimp only
      rw [pausedIn_snoc]
      exact this
  | @cutNone p rest all h hw =>
    rw [h] at hop
    have := inv_op (evs := []) (o := some (.will rest all)) I (by simp) ⟨(List.suffix_cons p rest).trans hop.1, by
      intro q hq
      rcases hop.2 q hq with g | g | g
      · subst g; exact .inr hw
      · exact .inl g
      · exact .inr g⟩ (by simp [h, owed]) (by simp [cutting])
    rw [List.append_nil] at this; exact this
  | @untell p left h =>
    rw [h] at hop
    refine inv_op (o := some (.tellRevoked left)) I (by simp [Ev.plain]) (fun q hq => hop q (by simp [hq])) ?_ (by simp [cutting])
    intro q
    rw [h]
    simp only [owed, List.count_cons, List.count_nil]
    by_cases e : p = q
    · subst e; simp; omega
    · simp [e]
  | untold h =>
    have := inv_op (evs := []) (o := none) I (by simp) trivial (by simp [h, owed]) (by simp [cutting])
    rw [List.append_nil] at this; exact this
  | @fetch p h hw hp => exact inv_op (o := s.op) I (by simp [Ev.plain]) hop (by simp) (by simp)
  | @wk l w k k' evs hl hk hs =>
    obtain ⟨A, e1, e2⟩ := about_wk (I.about w k hk) hs
    have hev : (∀ e ∈ evs, ∀ v p, v ≠ w → e ≠ .created v p ∧ e ≠ .cut v p ∧ e ≠ .paused v p ∧ e ≠ .synced v p ∧ e ≠ .activated v p ∧ e ≠ .grant v p ∧
        e ≠ .started v p ∧ e ≠ .finished v p) ∧ (∀ q, evs.count (.will q) = 0 ∧ evs.count (.revoked q) = 0 ∧ cuts q evs = 0) ∧
        ∀ q, (q ∈ pausing l k.part s.paused ↔ pausedIn q (s.trace ++ evs) = true) := by
      have hpz := I.paused
      cases l <;> simp only [stepWk] at hs
      all_goals first | cases hs | skip
      all_goals
        split at hs
        · cases hs
          refine ⟨?_, ?_, ?_⟩
          · intro e he v p hv
            simp at he
            try subst he
            try simp [Ne.symm hv]
          · intro q; simp [cuts]
          · intro q
            simp only [pausing, List.append_nil]
            try rw [pausedIn_snoc]
            first
              | exact hpz q
              | (by_cases e : k.part = q
                 · simp [e]
                 · simp [e, Ne.symm e, hpz q])
        · cases hs
    obtain ⟨v1, v2, v3⟩ := hev
    have hne : ∀ v, v ≠ w → ∀ p, Ev.created v p ∉ evs ∧ Ev.cut v p ∉ evs ∧ Ev.paused v p ∉ evs ∧ Ev.synced v p ∉ evs ∧ Ev.activated v p ∉ evs ∧ Ev.grant v p ∉ evs ∧
      Ev.started v p ∉ evs ∧ Ev.finished v p ∉ evs := by
      intro v hv p
      exact ⟨fun e => (v1 _ e v p hv).1 rfl, fun e => (v1 _ e v p hv).2.1 rfl, fun e => (v1 _ e v p hv).2.2.1 rfl, fun e => (v1 _ e v p hv).2.2.2.1 rfl,
        fun e => (v1 _ e v p hv).2.2.2.2.1 rfl, fun e => (v1 _ e v p hv).2.2.2.2.2.1 rfl, fun e => (v1 _ e v p hv).2.2.2.2.2.2.1 rfl,
        fun e => (v1 _ e v p hv).2.2.2.2.2.2.2 rfl⟩
    refine ⟨?_, ?_, I.one, ?_, ?_, ?_, ?_, ?_, v3⟩
    · intro p v hv
      obtain ⟨d, h1, h2, h3⟩ := I.map p v hv
      dsimp only
      by_cases e : v = w
      · subst e
        rw [hk] at h1; cases h1
        exact ⟨k', get_set_eq hk, by rw [e1, h2], by rw [e2, h3]⟩
      · exact ⟨d, by rw [get_set_ne e]; exact h1, h2, h3⟩
    · intro v d hv hh
      rcases get_set hk hv with ⟨h1, h2⟩ | ⟨h1, h2⟩
      · subst h1 h2
        rw [e1]
        exact I.live _ k hk (by rw [← e2]; exact hh)
      · exact I.live v d h2 hh
    · intro v d hv
      rcases get_set hk hv with ⟨h1, h2⟩ | ⟨h1, h2⟩
      · subst h1 h2; exact A
      · exact about_append (I.about v d h2) (hne v h1)
    · intro v p hv
      dsimp only at hv
      rw [List.length_set] at hv
      exact fresh_append (I.fresh v p hv) (hne v (by have := get_lt hk; omega) p)
    · have hw : ∀ p, St.worker { s with wks := s.wks.set w k', paused := pausing l k.part s.paused, trace := s.trace ++ evs } p = s.worker p := fun _ => rfl
      dsimp only
      cases ho : s.op with
      | none => trivial
      | some o => rw [ho] at hop; cases o <;> exact hop
    · intro p
      dsimp only
      rw [List.count_append, List.count_append, (v2 p).1, (v2 p).2.1]
      exact I.told p
    · intro p
      dsimp only
      rw [List.count_append, cuts_append, (v2 p).1, (v2 p).2.2]
      exact I.cuts p

theorem inv_reach {s : St} (h : Reach s) : Inv s := by
  induction h with
  | init => exact inv_init
  | step _ h ih => exact inv_tr ih (tr_of_step h)

/-! ### From steps to positions in the trace -/

theorem split_snoc {α : Type} {l evs a b : List α} {x : α} (h : l ++ evs = a ++ x :: b) (hlen : evs.length ≤ 1) :
    (∃ b', l = a ++ x :: b' ∧ b = b' ++ evs) ∨ (evs = [x] ∧ l = a ∧ b = []) := by
  match evs, hlen with
  | [], _ => rw [List.append_nil] at h; exact .inl ⟨b, h, by simp⟩
  | [e], _ =>
    rcases List.eq_nil_or_concat b with hb | ⟨b', z, hb⟩
    · subst hb
      obtain ⟨h1, h2⟩ := List.append_inj' h (by simp)
      exact .inr ⟨h2, h1, rfl⟩
    · rw [List.concat_eq_append] at hb
      subst hb
      rw [← List.cons_append, ← List.append_assoc] at h
      obtain ⟨h1, h2⟩ := List.append_inj' h (by simp)
      exact .inl ⟨b', h1, by rw [h2]⟩

/-- A worker in the map is one that was created and not told to stop. -/
theorem owner_of_worker {s : St} (I : Inv s) {p : Nat} (h : s.worker p ≠ none) : ∃ w, Ev.created w p ∈ s.trace ∧ Ev.cut w p ∉ s.trace := by
  obtain ⟨w, hw⟩ := Option.ne_none_iff_exists'.1 h
  obtain ⟨k, h1, h2, h3⟩ := I.map p w (worker_mem hw)
  have A := I.about w k h1
  exact ⟨w, (A.created p).2 h2.symm, fun e => by have := (A.cut p).1 e; rw [h3] at this; cases this.2⟩

theorem none_owner {s : St} (I : Inv s) {p : Nat} (h : s.worker p = none) : ∀ w, Ev.created w p ∈ s.trace → Ev.cut w p ∈ s.trace := by
  intro w hw
  have hlt : w < s.wks.length := by
    by_contra hge
    exact (I.fresh w p (by omega)).1 hw
  have A := I.about w _ (List.getElem?_eq_getElem hlt)
  have hp := (A.created p).1 hw
  refine (A.cut p).2 ⟨hp, ?_⟩
  by_contra hh
  have := I.live w _ (List.getElem?_eq_getElem hlt) (by simpa using hh)
  rw [← hp] at this
  exact worker_none h w this

theorem before_step {s s' : St} (I : Inv s) (h : Tr s s') : ∃ evs, s'.trace = s.trace ++ evs ∧ evs.length ≤ 1 ∧ ∀ e ∈ evs, before s.trace e := by
  have hop := I.op
  cases h with
  | assign | revoke | keep | made | told | willEnd | cutNone | untold => exact ⟨[], by simp, by simp, by simp⟩
  | @make p rest all h hw =>
    refine ⟨_, rfl, by simp, ?_⟩
    intro e he
    cases List.mem_singleton.1 he
    intro v hv
    refine ⟨?_, none_owner I hw v hv⟩
    intro e
    subst e
    exact (I.fresh _ p (Nat.le_refl _)).1 hv
  | @tell p left h =>
    refine ⟨_, rfl, by simp, ?_⟩
    intro e he
    cases List.mem_singleton.1 he
    rw [h] at hop
    exact owner_of_worker I (hop p (by simp))
  | will => exact ⟨_, rfl, by simp, by simp [before]⟩
  | @cut p rest all w k h hw hk =>
    refine ⟨_, rfl, by simp, ?_⟩
    intro e he
    cases List.mem_singleton.1 he
    obtain ⟨k0, g1, g2, g3⟩ := I.map p w (worker_mem hw)
    have A := I.about w k0 g1
    have hnc : Ev.cut w p ∉ s.trace := by
      intro e
      have := (A.cut p).1 e
      rw [g3] at this
      cases this.2
    refine ⟨(A.created p).2 g2.symm, hnc, ?_⟩
    have := I.cuts p
    rw [h] at this
    simp only [cutting, if_true] at this
    omega
  | @untell p left h =>
    refine ⟨_, rfl, by simp, ?_⟩
    intro e he
    cases List.mem_singleton.1 he
    rw [h] at hop
    refine ⟨?_, none_owner I (hop p (by simp))⟩
    have := I.told p
    rw [h] at this
    simp only [owed, List.count_cons_self] at this
    omega
  | @fetch p h hw hp =>
    refine ⟨_, rfl, by simp, ?_⟩
    intro e he
    cases List.mem_singleton.1 he
    refine ⟨?_, owner_of_worker I hw⟩
    have := I.paused p
    cases hpi : pausedIn p s.trace with
    | false => rfl
    | true => exact absurd (this.2 hpi) hp
  | @wk l w k k' evs hl hk hs =>
    have A := I.about w k hk
    refine ⟨evs, rfl, ?_⟩
    cases l <;> simp only [stepWk] at hs
    all_goals first | cases hs | skip
    all_goals
      split at hs
      · rename_i hq
        cases hs
        refine ⟨by simp, ?_⟩
        intro e he
        simp only [List.mem_singleton, List.not_mem_nil] at he
        all_goals (
             subst he
             simp only [before]
             have h1 := A.created; have h2 := A.cut; have h3 := A.paused; have h4 := A.synced; have h5 := A.activated; have h6 := A.grants; have h7 := A.starts
             try rcases hq.1 with hq1 | hq1
             all_goals simp_all [Stage.num])
      · cases hs

theorem before_all {s : St} (hr : Reach s) : ∀ (a b : List Ev) (e : Ev), s.trace = a ++ e :: b → before a e := by
  induction hr with
  | init => intro a b e h; simp [St.init] at h
  | @step s s' l hr h ih =>
    intro a b e hab
    obtain ⟨evs, h1, h2, h3⟩ := before_step (inv_reach hr) (tr_of_step h)
    rw [h1] at hab
    rcases split_snoc hab h2 with ⟨b', g1, g2⟩ | ⟨g1, g2, g3⟩
    · exact ih a b' e g1
    · subst g2
      exact h3 e (by rw [g1]; simp)

/-- A worker that is past line 224 has resumed its partition. -/
theorem resumed_inv {s : St} (hr : Reach s) : ∀ (w : Nat) (k : Wk), s.wks[w]? = some k → 3 ≤ k.stage.num → Ev.resumed w k.part ∈ s.trace := by
  induction hr with
  | init => intro w k h; simp [St.init] at h
  | @step s s' l hr h ih =>
    have ht := tr_of_step h
    intro w k hk hn
    cases ht with
    | @make p rest all h hw =>
      rcases get_append hk with ⟨h1, h2⟩ | g
      · subst h2; simp [Stage.num] at hn
      · exact List.mem_append_left _ (ih w k g hn)
    | @cut p rest all v d h hw hd =>
      rcases get_set hd hk with ⟨h1, h2⟩ | ⟨h1, h2⟩
      · subst h1 h2; exact List.mem_append_left _ (ih _ d hd hn)
      · exact List.mem_append_left _ (ih w k h2 hn)
    | @wk l v d d' evs hl hd hs =>
      rcases get_set hd hk with ⟨h1, h2⟩ | ⟨h1, h2⟩
      · subst h1 h2
        have ih := ih _ d hd
        dsimp only
        cases l <;> simp only [stepWk] at hs
        all_goals first | cases hs | skip
        all_goals
          split at hs
          · rename_i hq
            cases hs
            simp_all [Stage.num]
          · cases hs
      · exact List.mem_append_left _ (ih w k h2 hn)
    | tell | will | untell | fetch => exact List.mem_append_left _ (ih w k hk hn)
    | assign | revoke | keep | made | told | willEnd | cutNone | untold => exact ih w k hk hn

theorem activated_resumed {s : St} (hr : Reach s) : ∀ (a b : List Ev) (w p : Nat), s.trace = a ++ .activated w p :: b → Ev.resumed w p ∈ a := by
  induction hr with
  | init => intro a b w p h; simp [St.init] at h
  | @step s s' l hr h ih =>
    intro a b w p hab
    obtain ⟨evs, h1, h2, h3⟩ := before_step (inv_reach hr) (tr_of_step h)
    rw [h1] at hab
    rcases split_snoc hab h2 with ⟨b', g1, g2⟩ | ⟨g1, g2, g3⟩
    · exact ih a b' w p g1
    · subst g2
      have ht := tr_of_step h
      have hm : Ev.activated w p ∈ s'.trace.drop s.trace.length := by rw [h1, g1]; simp
      cases ht with
      | @wk l v d d' evs' hl hd hs =>
        have hre := resumed_inv hr _ d hd
        simp only [List.drop_left] at hm
        cases l <;> simp only [stepWk] at hs
        all_goals first | cases hs | skip
        all_goals
          split at hs
          · rename_i hq
            cases hs
            simp_all [Stage.num]
          · cases hs
      | _ => simp at hm

end Verif.Observe
