import Verif.Interject.Model
/-
Invariants of `Verif/Interject/Model.lean`.
-/
namespace Verif.Interject

/-- The steps as a relation, one constructor per way through the code. -/
inductive Tr (s : St) : Label → St → Prop
  | call {sync} : Tr s (.call sync) { s with calls := s.calls ++ [⟨sync, .start⟩] }
  | one {p} : Tr s (.one p) { s with calls := s.calls ++ [⟨false, .next [p] []⟩], trace := s.trace ++ [.single s.calls.length p] }
  | snap {i ps sync} (hc : s.calls[i]? = some ⟨sync, .start⟩) (hm : s.mux = none) (hp : ps.Perm (s.map.map (·.1))) :
      Tr s (.snap i ps) { s with calls := s.calls.set i ⟨sync, .next ps []⟩, trace := s.trace ++ [.found i ps] }
  | beginSend {i sync p rest its w k} (hc : s.calls[i]? = some ⟨sync, .next (p :: rest) its⟩) (hm : s.mux = none)
      (hw : s.worker p = some w) (hk : s.wks[w]? = some k) (hr : k.ready = true) :
      Tr s (.begin i) { s with calls := s.calls.set i ⟨sync, .sending w s.tags.length rest its⟩, mux := some i, tags := s.tags ++ [⟨i, p, .opened⟩] }
  | beginErr {i sync p rest its} (hc : s.calls[i]? = some ⟨sync, .next (p :: rest) its⟩) (hm : s.mux = none) :
      Tr s (.begin i) { s with calls := s.calls.set i ⟨sync, after sync s.tags.length rest its⟩, tags := s.tags ++ [⟨i, p, .err⟩],
                               trace := s.trace ++ [.refused i p] }
  | send {i sync w t rest its k} (hc : s.calls[i]? = some ⟨sync, .sending w t rest its⟩) (hk : s.wks[w]? = some k) (hn : k.chan = none) :
      Tr s (.send i) { s with calls := s.calls.set i ⟨sync, after sync t rest its⟩, mux := none, wks := s.wks.set w { k with chan := some t },
                              trace := s.trace ++ [.sent i k.part] }
  | recvSync {i sync t rest} (hc : s.calls[i]? = some ⟨sync, .waiting t rest⟩) (ha : s.answered t = true) :
      Tr s (.recv i) { s with calls := s.calls.set i ⟨sync, .next rest []⟩ }
  | recv {i sync t its} (hc : s.calls[i]? = some ⟨sync, .collect (t :: its)⟩) (ha : s.answered t = true) :
      Tr s (.recv i) { s with calls := s.calls.set i ⟨sync, .collect its⟩ }
  | finSync {i its} (hc : s.calls[i]? = some ⟨true, .next [] its⟩) :
      Tr s (.fin i) { s with calls := s.calls.set i ⟨true, .done⟩, trace := s.trace ++ [.returned i] }
  | finAll {i its} (hc : s.calls[i]? = some ⟨false, .next [] its⟩) :
      Tr s (.fin i) { s with calls := s.calls.set i ⟨false, .collect its⟩ }
  | fin {i sync} (hc : s.calls[i]? = some ⟨sync, .collect []⟩) :
      Tr s (.fin i) { s with calls := s.calls.set i ⟨sync, .done⟩, trace := s.trace ++ [.returned i] }
  | assign {p} (hm : s.mux = none) (hn : s.worker p = none) :
      Tr s (.assign p) { s with map := s.map ++ [(p, s.wks.length)], wks := s.wks ++ [⟨p, false, s.halted, false, none, []⟩], trace := s.trace ++ [.assigned p] }
  | revoke {p w k} (hm : s.mux = none) (hw : s.worker p = some w) (hk : s.wks[w]? = some k) :
      Tr s (.revoke p) { s with map := s.map.filter (fun e => e.1 ≠ p), wks := s.wks.set w { k with halted := true }, trace := s.trace ++ [.revoked p] }
  | revokeNone {p} (hm : s.mux = none) (hw : s.worker p = none) : Tr s (.revoke p) s
  | halt : Tr s .halt { s with halted := true, wks := s.wks.map fun k => { k with halted := true } }
  | receive (hm : s.mux = none) : Tr s .receive { s with trace := s.trace ++ [.polled] }
  | ready {w k} (hk : s.wks[w]? = some k) (hr : k.ready = false) : Tr s (.ready w) { s with wks := s.wks.set w { k with ready := true } }
  | takeLost {w k t} (hk : s.wks[w]? = some k) (hc : k.chan = some t) (hr : k.ready = true) (hs : k.stopped = false) (hh : k.halted = true) :
      Tr s (.take w) { s with wks := s.wks.set w { k with chan := none }, lost := s.lost ++ [t] }
  | take {w k t} (hk : s.wks[w]? = some k) (hc : k.chan = some t) (hr : k.ready = true) (hs : k.stopped = false) (hh : k.halted = false) :
      Tr s (.take w) { s with wks := s.wks.set w { k with chan := none, pend := k.pend ++ [t] } }
  | stop {w k} (hk : s.wks[w]? = some k) (hr : k.ready = true) (hh : k.halted = true) (hs : k.stopped = false) :
      Tr s (.stop w) { s with wks := s.wks.set w { k with stopped := true } }
  | run {w k t r x} (hk : s.wks[w]? = some k) (hp : k.pend = t :: r) (hx : s.tags[t]? = some x) :
      Tr s (.run w) { s with wks := s.wks.set w { k with pend := r }, tags := s.tags.set t { x with res := .closed },
                             trace := s.trace ++ [.ran x.call k.part] }
  | drop {w k t r} (hk : s.wks[w]? = some k) (hp : k.pend = t :: r) (hh : k.halted = true) :
      Tr s (.drop w) { s with wks := s.wks.set w { k with pend := r }, lost := s.lost ++ [t] }

theorem goto_eq {s : St} {i : Nat} {c : Call} {pc : Pc} (h : s.calls[i]? = some c) :
    s.goto i pc = { s with calls := s.calls.set i ⟨c.sync, pc⟩ } := by
  simp [St.goto, h]

theorem tr_of_call {s s' : St} {l : Label} (h : stepCall s l = some s') : Tr s l s' := by
  cases l <;> simp only [stepCall] at h
  case call => cases h; exact .call
  case one => cases h; exact .one
  case snap i ps =>
    split at h
    · rename_i hc
      split at h
      · rename_i hq
        cases h
        rw [goto_eq hc]
        exact .snap hc hq.1 hq.2
      · cases h
    · cases h
  case begin i =>
    split at h
    · rename_i hc
      split at h
      · rename_i hm
        split at h
        · rename_i hw
          split at h
          · rename_i hk
            split at h
            · rename_i hr
              cases h
              rw [goto_eq hc]
              exact .beginSend hc hm hw hk hr
            · cases h
              rw [goto_eq hc]
              exact .beginErr hc hm
          · cases h
        · cases h
          rw [goto_eq hc]
          exact .beginErr hc hm
      · cases h
    · cases h
  case send i =>
    split at h
    · rename_i hc
      split at h
      · rename_i hk
        split at h
        · rename_i hn
          cases h
          rw [goto_eq hc]
          exact .send hc hk hn
        · cases h
      · cases h
    · cases h
  case recv i =>
    split at h
    · rename_i hc
      split at h
      · rename_i ha
        cases h
        rw [goto_eq hc]
        exact .recvSync hc ha
      · cases h
    · rename_i hc
      split at h
      · rename_i ha
        cases h
        rw [goto_eq hc]
        exact .recv hc ha
      · cases h
    · cases h
  case fin i =>
    split at h
    · rename_i hc
      cases h
      rw [goto_eq hc]
      exact .finSync hc
    · rename_i hc
      cases h
      rw [goto_eq hc]
      exact .finAll hc
    · rename_i hc
      cases h
      rw [goto_eq hc]
      exact .fin hc
    · cases h
  all_goals cases h

theorem tr_of_worker {s s' : St} {l : Label} (h : stepWorker s l = some s') : Tr s l s' := by
  cases l <;> simp only [stepWorker] at h
  case assign p =>
    split at h
    · rename_i hq; cases h; exact .assign hq.1 hq.2
    · cases h
  case revoke p =>
    split at h
    · rename_i hm
      split at h
      · rename_i hw
        split at h
        · rename_i hk; cases h; exact .revoke hm hw hk
        · cases h
      · rename_i hw; cases h; exact .revokeNone hm hw
    · cases h
  case halt => cases h; exact .halt
  case receive =>
    split at h
    · rename_i hm; cases h; exact .receive hm
    · cases h
  case ready w =>
    split at h
    · rename_i hk
      split at h
      · cases h
      · rename_i hr; cases h; exact .ready hk (by simpa using hr)
    · cases h
  case take w =>
    split at h
    · rename_i hk
      split at h
      · rename_i hc
        split at h
        · rename_i hq
          split at h
          · rename_i hh; cases h; exact .takeLost hk hc hq.1 hq.2 hh
          · rename_i hh; cases h; exact .take hk hc hq.1 hq.2 (by simpa using hh)
        · cases h
      · cases h
    · cases h
  case stop w =>
    split at h
    · rename_i hk
      split at h
      · rename_i hq; cases h; exact .stop hk hq.1 hq.2.1 hq.2.2
      · cases h
    · cases h
  case run w =>
    split at h
    · rename_i hk
      split at h
      · rename_i hp
        split at h
        · rename_i hx; cases h; exact .run hk hp hx
        · cases h
      · cases h
    · cases h
  case drop w =>
    split at h
    · rename_i hk
      split at h
      · rename_i hp
        split at h
        · rename_i hh; cases h; exact .drop hk hp hh
        · cases h
      · cases h
    · cases h
  all_goals cases h

theorem tr_of_step {s s' : St} {l : Label} (h : step s l = some s') : Tr s l s' := by
  unfold step at h
  split at h
  · rename_i hc; cases h; exact tr_of_call hc
  · exact tr_of_worker h

/-- The states that can be reached. -/
inductive Reach : St → Prop
  | init : Reach St.init
  | step {s s' : St} {l : Label} : Reach s → step s l = some s' → Reach s'

theorem reach_run {s s' : St} {ls : List Label} (hr : Reach s) (h : run s ls = some s') : Reach s' := by
  induction ls generalizing s with
  | nil => cases h; exact hr
  | cons l ls ih =>
    simp only [run, Option.bind_eq_some_iff] at h
    obtain ⟨t, h1, h2⟩ := h
    exact ih (.step hr h1) h2

/-! ### Lists -/

theorem count_flatMap_set {α : Type} (f : α → List Nat) (t : Nat) (l : List α) (i : Nat) (x y : α) (h : l[i]? = some x) :
    ((l.set i y).flatMap f).count t + (f x).count t = (l.flatMap f).count t + (f y).count t := by
  induction l generalizing i with
  | nil => cases h
  | cons a l ih =>
    cases i with
    | zero =>
      simp only [List.getElem?_cons_zero, Option.some.injEq] at h
      subst h
      simp only [List.set_cons_zero, List.flatMap_cons, List.count_append]
      omega
    | succ i =>
      simp only [List.getElem?_cons_succ] at h
      simp only [List.set_cons_succ, List.flatMap_cons, List.count_append]
      have := ih i h
      omega

theorem countP_set {α : Type} (f : α → Bool) (l : List α) (i : Nat) (x y : α) (h : l[i]? = some x) :
    (l.set i y).countP f + (if f x then 1 else 0) = l.countP f + (if f y then 1 else 0) := by
  induction l generalizing i with
  | nil => cases h
  | cons a l ih =>
    cases i with
    | zero =>
      simp only [List.getElem?_cons_zero, Option.some.injEq] at h
      subst h
      simp only [List.set_cons_zero, List.countP_cons]
      omega
    | succ i =>
      simp only [List.getElem?_cons_succ] at h
      simp only [List.set_cons_succ, List.countP_cons]
      have := ih i h
      omega

theorem get_set {α : Type} {l : List α} {i j : Nat} {x y z : α} (h : l[i]? = some x) (hz : (l.set i y)[j]? = some z) :
    (j = i ∧ z = y) ∨ (j ≠ i ∧ l[j]? = some z) := by
  rw [List.getElem?_set] at hz
  by_cases hj : i = j
  · have hl : i < l.length := (List.getElem?_eq_some_iff.1 h).1
    simp only [hj, if_true] at hz
    rw [if_pos (by omega)] at hz
    left
    exact ⟨hj.symm, (Option.some.inj hz).symm⟩
  · simp only [hj, if_false] at hz
    exact .inr ⟨fun e => hj e.symm, hz⟩

theorem get_append {α : Type} {l : List α} {j : Nat} {y z : α} (hz : (l ++ [y])[j]? = some z) :
    (j = l.length ∧ z = y) ∨ l[j]? = some z := by
  rw [List.getElem?_append] at hz
  split at hz
  · exact .inr hz
  · rename_i hl
    have : j - l.length = 0 := by
      by_contra hne
      rw [List.getElem?_eq_none (by simp; omega)] at hz
      cases hz
    rw [this] at hz
    simp only [List.getElem?_cons_zero, Option.some.injEq] at hz
    exact .inl ⟨by omega, hz.symm⟩

theorem get_lt {α : Type} {l : List α} {j : Nat} {z : α} (h : l[j]? = some z) : j < l.length :=
  (List.getElem?_eq_some_iff.1 h).1

theorem get_set_ne {α : Type} {l : List α} {i j : Nat} {y : α} (h : j ≠ i) : (l.set i y)[j]? = l[j]? := by
  rw [List.getElem?_set, if_neg (fun e => h e.symm)]

theorem get_set_eq {α : Type} {l : List α} {i : Nat} {x y : α} (h : l[i]? = some x) : (l.set i y)[i]? = some y := by
  rw [List.getElem?_set, if_pos rfl, if_pos (get_lt h)]

theorem get_app_lt {α : Type} {l : List α} {j : Nat} {y z : α} (h : l[j]? = some z) : (l ++ [y])[j]? = some z := by
  rw [List.getElem?_append_left (get_lt h)]; exact h

/-! ### Where interjections are -/

/-- The interjections in a worker. -/
def Wk.holds (k : Wk) : List Nat := k.chan.toList ++ k.pend

/-- The interjection that a call is about to send. -/
def Call.holds (c : Call) : List Nat :=
  match c.pc with
  | .sending _ t _ _ => [t]
  | _ => []

/-- Where the interjections that did not run are. -/
def St.locs (s : St) : List Nat := s.wks.flatMap Wk.holds ++ (s.calls.flatMap Call.holds ++ s.lost)

/-- Whether the channel of `t` is still without an answer. -/
def St.isOpen (s : St) (t : Nat) : Bool :=
  match s.tags[t]? with
  | some x => x.res = .opened
  | none => false

/-- Channels from which a call is going to receive. -/
def Call.expects (c : Call) : List Nat :=
  match c.pc with
  | .next _ its => if c.sync then [] else its
  | .sending _ t _ its => (if c.sync then [] else its) ++ [t]
  | .waiting t _ => [t]
  | .collect its => its
  | _ => []

structure Inv (s : St) : Prop where
  mux : ∀ (i : Nat) (c : Call), s.calls[i]? = some c → (s.mux = some i ↔ c.holds ≠ [])
  muxLt : ∀ i, s.mux = some i → i < s.calls.length
  map : ∀ p w, (p, w) ∈ s.map → ∃ k : Wk, s.wks[w]? = some k ∧ k.part = p
  ready : ∀ k ∈ s.wks, k.chan ≠ none → k.ready = true
  stopped : ∀ k ∈ s.wks, k.stopped = true → k.halted = true
  lost : s.lost ≠ [] → ∃ k ∈ s.wks, k.halted = true
  loc : ∀ t, s.locs.count t = if s.isOpen t then 1 else 0
  held : ∀ (w : Nat) (k : Wk) (t : Nat), s.wks[w]? = some k → t ∈ k.holds → ∃ x : Tag, s.tags[t]? = some x ∧ x.part = k.part
  sending : ∀ (i : Nat) (sync : Bool) (w t : Nat) (rest its : List Nat), s.calls[i]? = some ⟨sync, .sending w t rest its⟩ →
    ∃ (k : Wk) (x : Tag), s.wks[w]? = some k ∧ s.tags[t]? = some x ∧ x.part = k.part ∧ x.call = i ∧ k.ready = true
  opened : ∀ (t : Nat) (x : Tag), s.tags[t]? = some x → x.res = .opened → ∃ c : Call, s.calls[x.call]? = some c ∧ t ∈ c.expects
  own : ∀ (i : Nat) (c : Call) (t : Nat), s.calls[i]? = some c → t ∈ c.expects → ∃ x : Tag, s.tags[t]? = some x ∧ x.call = i
  caller : ∀ x ∈ s.tags, x.call < s.calls.length

theorem count_one_mem {l : List Nat} {t : Nat} (h : l.count t = 1) : t ∈ l := List.count_pos_iff.1 (by omega)

theorem isOpen_iff {s : St} {t : Nat} : s.isOpen t = true ↔ ∃ x, s.tags[t]? = some x ∧ x.res = .opened := by
  unfold St.isOpen
  cases h : s.tags[t]? with
  | none => simp
  | some x => simp

theorem inv_init : Inv St.init := by
  constructor <;> simp [St.init, St.locs, St.isOpen]

theorem holds_after (sync : Bool) (t : Nat) (rest its : List Nat) : Call.holds ⟨sync, after sync t rest its⟩ = [] := by
  cases sync <;> rfl

theorem expects_after (sync : Bool) (t : Nat) (rest its : List Nat) :
    Call.expects ⟨sync, after sync t rest its⟩ = (if sync then [] else its) ++ [t] := by
  cases sync <;> rfl

theorem worker_mem {s : St} {p w : Nat} (h : s.worker p = some w) : (p, w) ∈ s.map := by
  unfold St.worker at h
  simp only [Option.map_eq_some_iff] at h
  obtain ⟨⟨a, b⟩, h1, h2⟩ := h
  have := List.find?_some h1
  simp only [decide_eq_true_eq] at this h2
  subst this h2
  exact List.mem_of_find?_eq_some h1

/-- A call moves on without touching the channels of workers, its held interjection or the tags. -/
theorem inv_move {s : St} (I : Inv s) {i : Nat} {c c' : Call} {tr : List Ev} (hc : s.calls[i]? = some c) (h0 : c.holds = []) (h0' : c'.holds = [])
    (he : ∀ t ∈ c.expects, t ∈ c'.expects ∨ s.isOpen t = false) (he' : ∀ t ∈ c'.expects, t ∈ c.expects) :
    Inv { s with calls := s.calls.set i c', trace := tr } := by
  have hsend : ∀ j sync w t rest its, (s.calls.set i c')[j]? = some ⟨sync, .sending w t rest its⟩ → j ≠ i ∧ s.calls[j]? = some ⟨sync, .sending w t rest its⟩ := by
    intro j sync w t rest its hj
    rcases get_set hc hj with ⟨_, h2⟩ | h
    · rw [← h2] at h0'
      simp [Call.holds] at h0'
    · exact h
  refine { map := I.map, ready := I.ready, stopped := I.stopped, lost := I.lost, held := I.held, mux := ?_, muxLt := ?_, loc := ?_, sending := ?_, opened := ?_,
           own := ?_, caller := ?_ }
  · intro j d hj
    dsimp only at hj ⊢
    rcases get_set hc hj with ⟨h1, h2⟩ | ⟨h1, h2⟩
    · subst h1 h2
      rw [I.mux _ c hc, h0, h0']
    · exact I.mux j d h2
  · intro j hj
    dsimp only
    rw [List.length_set]
    exact I.muxLt j hj
  · intro t
    have h1 := I.loc t
    have h2 := count_flatMap_set Call.holds t s.calls i c c' hc
    rw [h0, h0'] at h2
    simp only [St.locs, List.count_append] at h1 ⊢
    have : St.isOpen { s with calls := s.calls.set i c', trace := tr } t = s.isOpen t := rfl
    rw [this]
    omega
  · intro j sync w t rest its hj
    exact I.sending j sync w t rest its (hsend j sync w t rest its hj).2
  · intro t x ht ho
    obtain ⟨d, h1, h2⟩ := I.opened t x ht ho
    dsimp only
    by_cases hj : x.call = i
    · rw [hj] at h1
      rw [h1] at hc
      cases hc
      refine ⟨c', by rw [hj]; exact get_set_eq h1, ?_⟩
      rcases he t h2 with h | h
      · exact h
      · exfalso
        have hop : s.isOpen t = true := isOpen_iff.2 ⟨x, ht, ho⟩
        rw [hop] at h
        cases h
    · exact ⟨d, by rw [get_set_ne hj]; exact h1, h2⟩
  · intro j d t hj ht
    dsimp only at hj
    rcases get_set hc hj with ⟨h1, h2⟩ | ⟨h1, h2⟩
    · subst h1 h2
      exact I.own _ c t hc (he' t ht)
    · exact I.own j d t h2 ht
  · intro x hx
    dsimp only
    rw [List.length_set]
    exact I.caller x hx

/-- A worker changes without a change in what it holds. -/
theorem inv_worker {s : St} (I : Inv s) {w : Nat} {k k' : Wk} {tr : List Ev} {m : List (Nat × Nat)} (hk : s.wks[w]? = some k) (hp : k'.part = k.part)
    (hc : k'.chan = k.chan) (hh : k'.pend = k.pend) (hr : k.ready = true → k'.ready = true) (hst : k'.stopped = true → k'.halted = true)
    (hha : k.halted = true → k'.halted = true) (hm : ∀ e ∈ m, e ∈ s.map) :
    Inv { s with wks := s.wks.set w k', trace := tr, map := m } := by
  have hhold : k'.holds = k.holds := by simp only [Wk.holds, hc, hh]
  refine { mux := I.mux, muxLt := I.muxLt, opened := I.opened, own := I.own, caller := I.caller, map := ?_, ready := ?_, stopped := ?_, lost := ?_, loc := ?_,
           held := ?_, sending := ?_ }
  · intro p v hv
    obtain ⟨d, h1, h2⟩ := I.map p v (hm _ hv)
    dsimp only
    by_cases hj : v = w
    · subst hj
      rw [h1] at hk
      cases hk
      exact ⟨k', get_set_eq h1, by rw [hp, h2]⟩
    · exact ⟨d, by rw [get_set_ne hj]; exact h1, h2⟩
  · intro d hd hd'
    rcases List.mem_or_eq_of_mem_set hd with h | h
    · exact I.ready d h hd'
    · subst h
      rw [hc] at hd'
      exact hr (I.ready k (List.mem_of_getElem? hk) hd')
  · intro d hd hd'
    rcases List.mem_or_eq_of_mem_set hd with h | h
    · exact I.stopped d h hd'
    · subst h
      exact hst hd'
  · intro hl
    obtain ⟨d, h1, h2⟩ := I.lost hl
    obtain ⟨j, hj⟩ := List.mem_iff_getElem?.1 h1
    dsimp only
    by_cases hjw : j = w
    · subst hjw
      rw [hj] at hk
      cases hk
      exact ⟨k', List.mem_of_getElem? (get_set_eq hj), hha h2⟩
    · exact ⟨d, List.mem_of_getElem? (by rw [get_set_ne hjw]; exact hj), h2⟩
  · intro t
    have h1 := I.loc t
    have h2 := count_flatMap_set Wk.holds t s.wks w k k' hk
    rw [hhold] at h2
    simp only [St.locs, List.count_append] at h1 ⊢
    have : St.isOpen { s with wks := s.wks.set w k', trace := tr, map := m } t = s.isOpen t := rfl
    rw [this]
    omega
  · intro v d t hv ht
    rcases get_set hk hv with ⟨h1, h2⟩ | ⟨h1, h2⟩
    · subst h1 h2
      rw [hhold] at ht
      rw [hp]
      exact I.held _ k t hk ht
    · exact I.held v d t h2 ht
  · intro j sync v t rest its hj
    obtain ⟨d, x, h1, h2, h3, h4, h5⟩ := I.sending j sync v t rest its hj
    dsimp only
    by_cases hjw : v = w
    · subst hjw
      rw [h1] at hk
      cases hk
      exact ⟨k', x, get_set_eq h1, h2, by rw [hp, h3], h4, hr h5⟩
    · exact ⟨d, x, by rw [get_set_ne hjw]; exact h1, h2, h3, h4, h5⟩

/-- A new call. -/
theorem inv_new {s : St} (I : Inv s) {c : Call} {tr : List Ev} (h0 : c.holds = []) (he : c.expects = []) :
    Inv { s with calls := s.calls ++ [c], trace := tr } := by
  refine { map := I.map, ready := I.ready, stopped := I.stopped, lost := I.lost, held := I.held, mux := ?_, muxLt := ?_, loc := ?_, sending := ?_, opened := ?_,
           own := ?_, caller := ?_ }
  · intro j d hj
    dsimp only at hj ⊢
    rcases get_append hj with ⟨h1, h2⟩ | h
    · subst h1 h2
      rw [h0]
      constructor
      · intro hm
        have := I.muxLt _ hm
        omega
      · intro h
        exact absurd rfl h
    · exact I.mux j d h
  · intro j hj
    have := I.muxLt j hj
    simp
    omega
  · intro t
    have h1 := I.loc t
    simp only [St.locs, List.count_append, List.flatMap_append, List.flatMap_cons, List.flatMap_nil, h0, List.count_nil] at h1 ⊢
    have : St.isOpen { s with calls := s.calls ++ [c], trace := tr } t = s.isOpen t := rfl
    rw [this]
    omega
  · intro j sync w t rest its hj
    dsimp only at hj
    rcases get_append hj with ⟨h1, h2⟩ | h
    · rw [← h2] at h0
      simp [Call.holds] at h0
    · exact I.sending j sync w t rest its h
  · intro t x ht ho
    obtain ⟨d, h1, h2⟩ := I.opened t x ht ho
    exact ⟨d, get_app_lt h1, h2⟩
  · intro j d t hj ht
    dsimp only at hj
    rcases get_append hj with ⟨h1, h2⟩ | h
    · subst h2
      rw [he] at ht
      cases ht
    · exact I.own j d t h ht
  · intro x hx
    have := I.caller x hx
    simp
    omega

theorem isOpen_append (s : St) (x : Tag) (t : Nat) (cs : List Call) (tr : List Ev) (m : Option Nat) :
    St.isOpen { s with calls := cs, mux := m, tags := s.tags ++ [x], trace := tr } t =
      if t = s.tags.length then decide (x.res = .opened) else s.isOpen t := by
  unfold St.isOpen
  dsimp only
  by_cases h : t = s.tags.length
  · subst h
    rw [if_pos rfl, List.getElem?_append_right (Nat.le_refl _)]
    simp
  · rw [if_neg h]
    by_cases h2 : t < s.tags.length
    · rw [List.getElem?_append_left h2]
    · rw [List.getElem?_append_right (by omega)]
      have : t - s.tags.length ≠ 0 := by omega
      rw [List.getElem?_eq_none (by simp; omega), List.getElem?_eq_none (by omega)]

/-- A call of `interject` begins: a new tag, which the call either holds or will receive. -/
theorem inv_begin {s : St} (I : Inv s) {i : Nat} {c c' : Call} {x : Tag} {tr : List Ev} {m : Option Nat} (hc : s.calls[i]? = some c) (h0 : c.holds = [])
    (hm0 : s.mux = none) (hm : m = if c'.holds = [] then none else some i) (hx : x.call = i)
    (hh : c'.holds = if x.res = .opened then [s.tags.length] else [])
    (he : ∀ t ∈ c.expects, t ∈ c'.expects) (he' : ∀ t ∈ c'.expects, t ∈ c.expects ∨ t = s.tags.length) (hlast : s.tags.length ∈ c'.expects)
    (hs : ∀ sync w t rest its, c' = ⟨sync, .sending w t rest its⟩ → ∃ k, t = s.tags.length ∧ s.wks[w]? = some k ∧ x.part = k.part ∧ k.ready = true) :
    Inv { s with calls := s.calls.set i c', mux := m, tags := s.tags ++ [x], trace := tr } := by
  refine { map := I.map, ready := I.ready, stopped := I.stopped, lost := I.lost, held := ?_, mux := ?_, muxLt := ?_, loc := ?_, sending := ?_, opened := ?_,
           own := ?_, caller := ?_ }
  · intro j d hj
    dsimp only at hj ⊢
    rcases get_set hc hj with ⟨h1, h2⟩ | ⟨h1, h2⟩
    · subst h1 h2
      rw [hm]
      by_cases hd : d.holds = [] <;> simp [hd]
    · have := I.mux j d h2
      rw [hm0] at this
      rw [hm, ← this]
      by_cases hd : c'.holds = []
      · simp [hd]
      · simp only [hd, if_false]
        constructor
        · intro h; cases h; exact absurd rfl h1
        · intro h; cases h
  · intro j hj
    dsimp only at hj ⊢
    rw [List.length_set]
    rw [hm] at hj
    split at hj
    · cases hj
    · cases hj
      exact get_lt hc
  · intro t
    have h1 := I.loc t
    have h2 := count_flatMap_set Call.holds t s.calls i c c' hc
    rw [h0, hh] at h2
    rw [isOpen_append]
    simp only [St.locs, List.count_append] at h1 ⊢
    by_cases ht : t = s.tags.length
    · subst ht
      have hno : s.isOpen s.tags.length = false := by
        unfold St.isOpen
        rw [List.getElem?_eq_none (Nat.le_refl _)]
      rw [hno] at h1
      by_cases ho : x.res = .opened
      · simp [ho] at h2 ⊢
        simp at h1
        omega
      · simp [ho] at h2 ⊢
        simp at h1
        omega
    · rw [if_neg ht]
      by_cases ho : x.res = .opened
      · have hz : List.count t [s.tags.length] = 0 := by
          rw [List.count_eq_zero]; simpa using ht
        simp only [ho, if_true, hz, List.count_nil] at h2
        omega
      · simp only [ho, if_false, List.count_nil] at h2
        omega
  · intro w k t hk ht
    obtain ⟨y, h1, h2⟩ := I.held w k t hk ht
    exact ⟨y, get_app_lt h1, h2⟩
  · intro j sync w t rest its hj
    dsimp only at hj ⊢
    rcases get_set hc hj with ⟨h1, h2⟩ | ⟨h1, h2⟩
    · subst h1
      obtain ⟨k, g1, g2, g3, g4⟩ := hs sync w t rest its h2.symm
      refine ⟨k, x, g2, ?_, g3, hx, g4⟩
      rw [g1, List.getElem?_append_right (Nat.le_refl _)]
      simp
    · obtain ⟨d, y, g1, g2, g3, g4, g5⟩ := I.sending j sync w t rest its h2
      exact ⟨d, y, g1, get_app_lt g2, g3, g4, g5⟩
  · intro t y ht ho
    dsimp only at ht ⊢
    rcases get_append ht with ⟨h1, h2⟩ | h
    · subst h1 h2
      rw [hx]
      exact ⟨c', get_set_eq hc, hlast⟩
    · obtain ⟨d, g1, g2⟩ := I.opened t y h ho
      by_cases hj : y.call = i
      · rw [hj] at g1
        rw [g1] at hc
        cases hc
        exact ⟨c', by rw [hj]; exact get_set_eq g1, he t g2⟩
      · exact ⟨d, by rw [get_set_ne hj]; exact g1, g2⟩
  · intro j d t hj ht
    dsimp only at hj ⊢
    rcases get_set hc hj with ⟨h1, h2⟩ | ⟨h1, h2⟩
    · subst h1 h2
      rcases he' t ht with h | h
      · obtain ⟨y, g1, g2⟩ := I.own _ c t hc h
        exact ⟨y, get_app_lt g1, g2⟩
      · subst h
        refine ⟨x, ?_, hx⟩
        rw [List.getElem?_append_right (Nat.le_refl _)]
        simp
    · obtain ⟨y, g1, g2⟩ := I.own j d t h2 ht
      exact ⟨y, get_app_lt g1, g2⟩
  · intro y hy
    dsimp only at hy ⊢
    rw [List.length_set]
    rcases List.mem_append.1 hy with h | h
    · exact I.caller y h
    · rw [List.mem_singleton.1 h, hx]
      exact get_lt hc

theorem inv_step {s s' : St} {l : Label} (I : Inv s) (h : Tr s l s') : Inv s' := by
  cases h with
  | call => exact inv_new I rfl (by simp [Call.expects])
  | one => exact inv_new I rfl (by simp [Call.expects])
  | snap hc hm hp =>
    exact inv_move I hc rfl rfl (by simp [Call.expects]) (by intro t ht; rename_i sync; cases sync <;> simp [Call.expects] at ht)
  | @beginSend i sync p rest its w k hc hm hw hk hr =>
    obtain ⟨k', h1, h2⟩ := I.map p w (worker_mem hw)
    rw [hk] at h1
    cases h1
    exact inv_begin (c' := ⟨sync, .sending w s.tags.length rest its⟩) (x := ⟨i, p, .opened⟩) (tr := s.trace) (m := some i) I hc rfl hm (by simp [Call.holds]) rfl
      (by simp [Call.holds]) (by intro t ht; simp only [Call.expects] at ht ⊢; exact List.mem_append_left _ ht)
      (by intro t ht; simp only [Call.expects] at ht ⊢; rcases List.mem_append.1 ht with h | h
          · exact .inl h
          · exact .inr (List.mem_singleton.1 h))
      (by simp [Call.expects])
      (by intro a b c d e heq; cases heq; exact ⟨k, rfl, hk, h2.symm, hr⟩)
  | @beginErr i sync p rest its hc hm =>
    have := inv_begin (c' := ⟨sync, after sync s.tags.length rest its⟩) (x := ⟨i, p, .err⟩) (tr := s.trace ++ [.refused i p]) (m := none) I hc rfl hm
      (by simp [holds_after]) rfl
      (by simp [holds_after]) (by intro t ht; rw [expects_after]; simp only [Call.expects] at ht; exact List.mem_append_left _ ht)
      (by intro t ht; rw [expects_after] at ht; simp only [Call.expects]; rcases List.mem_append.1 ht with h | h
          · exact .inl h
          · exact .inr (List.mem_singleton.1 h))
      (by rw [expects_after]; simp)
      (by intro a b c d e heq
          have := congrArg Call.holds heq
          rw [holds_after] at this
          simp [Call.holds] at this)
    rw [← hm] at this
    exact this
  | @send i sync w t rest its k hc hk hn =>
    have hmux : s.mux = some i := (I.mux i _ hc).2 (by simp [Call.holds])
    obtain ⟨k', x, g1, g2, g3, g4, g5⟩ := I.sending i sync w t rest its hc
    rw [hk] at g1
    cases g1
    have hothers : ∀ j c, j ≠ i → s.calls[j]? = some c → c.holds = [] := by
      intro j c hj hcj
      by_contra hne
      have := (I.mux j c hcj).2 hne
      rw [hmux] at this
      exact hj (Option.some.inj this).symm
    refine { map := ?_, ready := ?_, stopped := ?_, lost := ?_, held := ?_, mux := ?_, muxLt := ?_, loc := ?_, sending := ?_, opened := ?_,
             own := ?_, caller := ?_ }
    · intro j d hj
      dsimp only at hj ⊢
      rcases get_set hc hj with ⟨h1, h2⟩ | ⟨h1, h2⟩
      · subst h2
        rw [holds_after]
        simp
      · rw [hothers j d h1 h2]
        simp
    · intro j hj
      cases hj
    · intro p v hv
      obtain ⟨d, h1, h2⟩ := I.map p v hv
      dsimp only
      by_cases hj : v = w
      · subst hj
        rw [h1] at hk
        cases hk
        exact ⟨_, get_set_eq h1, h2⟩
      · exact ⟨d, by rw [get_set_ne hj]; exact h1, h2⟩
    · intro d hd hd'
      rcases List.mem_or_eq_of_mem_set hd with h | h
      · exact I.ready d h hd'
      · subst h
        exact g5
    · intro d hd hd'
      rcases List.mem_or_eq_of_mem_set hd with h | h
      · exact I.stopped d h hd'
      · subst h
        exact I.stopped k (List.mem_of_getElem? hk) hd'
    · intro hl
      obtain ⟨d, h1, h2⟩ := I.lost hl
      obtain ⟨j, hj⟩ := List.mem_iff_getElem?.1 h1
      dsimp only
      by_cases hjw : j = w
      · subst hjw
        rw [hj] at hk
        cases hk
        exact ⟨_, List.mem_of_getElem? (get_set_eq hj), h2⟩
      · exact ⟨d, List.mem_of_getElem? (by rw [get_set_ne hjw]; exact hj), h2⟩
    · intro u
      have h1 := I.loc u
      have h2 := count_flatMap_set Wk.holds u s.wks w k { k with chan := some t } hk
      have h3 := count_flatMap_set Call.holds u s.calls i _ ⟨sync, after sync t rest its⟩ hc
      rw [holds_after] at h3
      simp only [Wk.holds, hn, Call.holds, Option.toList, List.count_append, List.nil_append, List.count_nil] at h2 h3
      simp only [St.locs, List.count_append] at h1 ⊢
      have : St.isOpen { s with calls := s.calls.set i ⟨sync, after sync t rest its⟩, mux := none, wks := s.wks.set w { k with chan := some t },
                                trace := s.trace ++ [.sent i k.part] } u = s.isOpen u := rfl
      rw [this]
      omega
    · intro v d u hv hu
      dsimp only at hv ⊢
      rcases get_set hk hv with ⟨h1, h2⟩ | ⟨h1, h2⟩
      · subst h1 h2
        simp only [Wk.holds, Option.toList, List.singleton_append, List.mem_cons] at hu
        rcases hu with hu | hu
        · subst hu
          exact ⟨x, g2, g3⟩
        · exact I.held _ k u hk (by simp only [Wk.holds]; exact List.mem_append_right _ hu)
      · exact I.held v d u h2 hu
    · intro j a b c d e hj
      dsimp only at hj ⊢
      rcases get_set hc hj with ⟨h1, h2⟩ | ⟨h1, h2⟩
      · have := congrArg Call.holds h2
        rw [holds_after] at this
        simp [Call.holds] at this
      · have := hothers j _ h1 h2
        simp [Call.holds] at this
    · intro u y hu ho
      obtain ⟨d, h1, h2⟩ := I.opened u y hu ho
      dsimp only
      by_cases hj : y.call = i
      · rw [hj] at h1
        rw [h1] at hc
        cases hc
        refine ⟨⟨sync, after sync t rest its⟩, by rw [hj]; exact get_set_eq h1, ?_⟩
        rw [expects_after]
        exact h2
      · exact ⟨d, by rw [get_set_ne hj]; exact h1, h2⟩
    · intro j d u hj hu
      dsimp only at hj
      rcases get_set hc hj with ⟨h1, h2⟩ | ⟨h1, h2⟩
      · subst h1 h2
        rw [expects_after] at hu
        exact I.own _ _ u hc hu
      · exact I.own j d u h2 hu
    · intro y hy
      dsimp only
      rw [List.length_set]
      exact I.caller y hy
  | @recvSync i sync t rest hc ha =>
    refine inv_move I hc rfl rfl ?_ (by intro u hu; cases sync <;> simp [Call.expects] at hu)
    intro u hu
    simp only [Call.expects, List.mem_singleton] at hu
    subst hu
    right
    unfold St.answered at ha
    unfold St.isOpen
    split <;> rename_i hx
    · rw [hx] at ha
      simpa using ha
    · rfl
  | @recv i sync t its hc ha =>
    refine inv_move I hc rfl rfl ?_ (by intro u hu; simp only [Call.expects] at hu ⊢; exact List.mem_cons_of_mem _ hu)
    intro u hu
    simp only [Call.expects, List.mem_cons] at hu ⊢
    rcases hu with hu | hu
    · subst hu
      right
      unfold St.answered at ha
      unfold St.isOpen
      split <;> rename_i hx
      · rw [hx] at ha
        simpa using ha
      · rfl
    · exact .inl hu
  | @finSync i its hc => exact inv_move I hc rfl rfl (by simp [Call.expects]) (by simp [Call.expects])
  | @finAll i its hc => exact inv_move I hc rfl rfl (by simp only [Call.expects]; exact fun t ht => .inl ht) (by simp [Call.expects])
  | @fin i sync hc => exact inv_move I hc rfl rfl (by simp [Call.expects]) (by simp [Call.expects])
  | @assign p hm hn =>
    refine { mux := I.mux, muxLt := I.muxLt, opened := I.opened, own := I.own, caller := I.caller, map := ?_, ready := ?_, stopped := ?_, lost := ?_, loc := ?_,
             held := ?_, sending := ?_ }
    · intro q v hv
      dsimp only at hv ⊢
      rcases List.mem_append.1 hv with h | h
      · obtain ⟨d, h1, h2⟩ := I.map q v h
        exact ⟨d, get_app_lt h1, h2⟩
      · cases List.mem_singleton.1 h
        refine ⟨⟨p, false, s.halted, false, none, []⟩, ?_, rfl⟩
        rw [List.getElem?_append_right (Nat.le_refl _)]
        simp
    · intro d hd hd'
      rcases List.mem_append.1 hd with h | h
      · exact I.ready d h hd'
      · rw [List.mem_singleton.1 h] at hd'
        exact absurd rfl hd'
    · intro d hd hd'
      rcases List.mem_append.1 hd with h | h
      · exact I.stopped d h hd'
      · rw [List.mem_singleton.1 h] at hd'
        cases hd'
    · intro hl
      obtain ⟨d, h1, h2⟩ := I.lost hl
      exact ⟨d, List.mem_append_left _ h1, h2⟩
    · intro t
      have h1 := I.loc t
      simp only [St.locs, List.count_append, List.flatMap_append, List.flatMap_cons, List.flatMap_nil, Wk.holds, Option.toList, List.count_nil] at h1 ⊢
      have : St.isOpen { s with map := s.map ++ [(p, s.wks.length)], wks := s.wks ++ [⟨p, false, s.halted, false, none, []⟩], trace := s.trace ++ [.assigned p] } t = s.isOpen t := rfl
      rw [this]
      omega
    · intro v d t hv ht
      rcases get_append hv with ⟨h1, h2⟩ | h
      · subst h2
        simp [Wk.holds] at ht
      · exact I.held v d t h ht
    · intro j sync w t rest its hj
      obtain ⟨d, x, h1, h2⟩ := I.sending j sync w t rest its hj
      exact ⟨d, x, get_app_lt h1, h2⟩
  | @revoke p w k hm hw hk =>
    exact inv_worker (k' := { k with halted := true }) (tr := s.trace ++ [.revoked p]) (m := s.map.filter (fun e => e.1 ≠ p)) I hk rfl rfl rfl (fun h => h) (fun _ => rfl)
      (fun _ => rfl) (fun e he => (List.mem_filter.1 he).1)
  | revokeNone => exact I
  | halt =>
    have hmapk : ∀ (w : Nat) (k : Wk), s.wks[w]? = some k → (s.wks.map fun k => ({ k with halted := true } : Wk))[w]? = some ({ k with halted := true } : Wk) := by
      intro w k hk
      rw [List.getElem?_map, hk]; rfl
    refine { mux := I.mux, muxLt := I.muxLt, opened := I.opened, own := I.own, caller := I.caller, map := ?_, ready := ?_, stopped := ?_, lost := ?_, loc := ?_,
             held := ?_, sending := ?_ }
    · intro q v hv
      obtain ⟨d, h1, h2⟩ := I.map q v hv
      exact ⟨_, hmapk v d h1, h2⟩
    · intro d hd hd'
      obtain ⟨d0, h1, h2⟩ := List.mem_map.1 hd
      subst h2
      exact I.ready d0 h1 hd'
    · intro d hd _
      obtain ⟨d0, h1, h2⟩ := List.mem_map.1 hd
      subst h2
      rfl
    · intro hl
      obtain ⟨d, h1, h2⟩ := I.lost hl
      exact ⟨_, List.mem_map_of_mem h1, rfl⟩
    · intro t
      have h1 := I.loc t
      have h2 : (s.wks.map fun k => ({ k with halted := true } : Wk)).flatMap Wk.holds = s.wks.flatMap Wk.holds := by
        rw [List.flatMap_map]; rfl
      simp only [St.locs, List.count_append] at h1 ⊢
      rw [h2]
      exact h1
    · intro v d t hv ht
      dsimp only at hv
      rw [List.getElem?_map] at hv
      obtain ⟨d0, h1, h2⟩ := Option.map_eq_some_iff.1 hv
      subst h2
      exact I.held v d0 t h1 ht
    · intro j sync w t rest its hj
      obtain ⟨d, x, h1, h2⟩ := I.sending j sync w t rest its hj
      exact ⟨_, x, hmapk w d h1, h2⟩
  | receive hm =>
    exact { mux := I.mux, muxLt := I.muxLt, opened := I.opened, own := I.own, caller := I.caller, map := I.map, ready := I.ready, stopped := I.stopped,
            lost := I.lost, loc := I.loc, held := I.held, sending := I.sending }
  | @ready w k hk hr =>
    exact inv_worker (k' := { k with ready := true }) (tr := s.trace) (m := s.map) I hk rfl rfl rfl (fun _ => rfl) (I.stopped k (List.mem_of_getElem? hk))
      (fun h => h) (fun e he => he)
  | @stop w k hk hr hh hs =>
    exact inv_worker (k' := { k with stopped := true }) (tr := s.trace) (m := s.map) I hk rfl rfl rfl (fun h => h) (fun _ => hh) (fun h => h) (fun e he => he)
  | @takeLost w k t hk hc hr hs hh =>
    refine { mux := I.mux, muxLt := I.muxLt, opened := I.opened, own := I.own, caller := I.caller, map := ?_, ready := ?_, stopped := ?_, lost := ?_, loc := ?_,
             held := ?_, sending := ?_ }
    · intro p v hv
      obtain ⟨d, h1, h2⟩ := I.map p v hv
      dsimp only
      by_cases hj : v = w
      · subst hj
        rw [h1] at hk; cases hk
        exact ⟨_, get_set_eq h1, h2⟩
      · exact ⟨d, by rw [get_set_ne hj]; exact h1, h2⟩
    · intro d hd hd'
      rcases List.mem_or_eq_of_mem_set hd with h | h
      · exact I.ready d h hd'
      · subst h; exact absurd rfl hd'
    · intro d hd hd'
      rcases List.mem_or_eq_of_mem_set hd with h | h
      · exact I.stopped d h hd'
      · subst h; exact hh
    · intro _
      exact ⟨_, List.mem_of_getElem? (get_set_eq hk), hh⟩
    · intro u
      have h1 := I.loc u
      have h2 := count_flatMap_set Wk.holds u s.wks w k { k with chan := none } hk
      simp only [Wk.holds, hc, Option.toList, List.count_append, List.nil_append] at h2
      simp only [St.locs, List.count_append] at h1 ⊢
      have : St.isOpen { s with wks := s.wks.set w { k with chan := none }, lost := s.lost ++ [t] } u = s.isOpen u := rfl
      rw [this]
      omega
    · intro v d u hv hu
      rcases get_set hk hv with ⟨h1, h2⟩ | ⟨h1, h2⟩
      · subst h1 h2
        simp only [Wk.holds, Option.toList, List.nil_append] at hu
        exact I.held _ k u hk (by simp only [Wk.holds]; exact List.mem_append_right _ hu)
      · exact I.held v d u h2 hu
    · intro j sync v u rest its hj
      obtain ⟨d, x, h1, h2, h3, h4, h5⟩ := I.sending j sync v u rest its hj
      dsimp only
      by_cases hjw : v = w
      · subst hjw
        rw [h1] at hk; cases hk
        exact ⟨_, x, get_set_eq h1, h2, h3, h4, h5⟩
      · exact ⟨d, x, by rw [get_set_ne hjw]; exact h1, h2, h3, h4, h5⟩
  | @take w k t hk hc hr hs hh =>
    refine { mux := I.mux, muxLt := I.muxLt, opened := I.opened, own := I.own, caller := I.caller, map := ?_, ready := ?_, stopped := ?_, lost := ?_, loc := ?_,
             held := ?_, sending := ?_ }
    · intro p v hv
      obtain ⟨d, h1, h2⟩ := I.map p v hv
      dsimp only
      by_cases hj : v = w
      · subst hj
        rw [h1] at hk; cases hk
        exact ⟨_, get_set_eq h1, h2⟩
      · exact ⟨d, by rw [get_set_ne hj]; exact h1, h2⟩
    · intro d hd hd'
      rcases List.mem_or_eq_of_mem_set hd with h | h
      · exact I.ready d h hd'
      · subst h; exact absurd rfl hd'
    · intro d hd hd'
      rcases List.mem_or_eq_of_mem_set hd with h | h
      · exact I.stopped d h hd'
      · subst h
        dsimp only at hd'
        rw [hs] at hd'; cases hd'
    · intro hl
      obtain ⟨d, h1, h2⟩ := I.lost hl
      obtain ⟨j, hj⟩ := List.mem_iff_getElem?.1 h1
      dsimp only
      by_cases hjw : j = w
      · subst hjw
        rw [hj] at hk; cases hk
        rw [hh] at h2; cases h2
      · exact ⟨d, List.mem_of_getElem? (by rw [get_set_ne hjw]; exact hj), h2⟩
    · intro u
      have h1 := I.loc u
      have h2 := count_flatMap_set Wk.holds u s.wks w k { k with chan := none, pend := k.pend ++ [t] } hk
      simp only [Wk.holds, hc, Option.toList, List.count_append, List.nil_append] at h2
      simp only [St.locs, List.count_append] at h1 ⊢
      have : St.isOpen { s with wks := s.wks.set w { k with chan := none, pend := k.pend ++ [t] } } u = s.isOpen u := rfl
      rw [this]
      omega
    · intro v d u hv hu
      rcases get_set hk hv with ⟨h1, h2⟩ | ⟨h1, h2⟩
      · subst h1 h2
        refine I.held _ k u hk ?_
        simp only [Wk.holds, hc, Option.toList, List.nil_append, List.mem_append, List.mem_singleton] at hu ⊢
        exact hu.symm
      · exact I.held v d u h2 hu
    · intro j sync v u rest its hj
      obtain ⟨d, x, h1, h2, h3, h4, h5⟩ := I.sending j sync v u rest its hj
      dsimp only
      by_cases hjw : v = w
      · subst hjw
        rw [h1] at hk; cases hk
        exact ⟨_, x, get_set_eq h1, h2, h3, h4, h5⟩
      · exact ⟨d, x, by rw [get_set_ne hjw]; exact h1, h2, h3, h4, h5⟩
  | @drop w k t r hk hp hh =>
    refine { mux := I.mux, muxLt := I.muxLt, opened := I.opened, own := I.own, caller := I.caller, map := ?_, ready := ?_, stopped := ?_, lost := ?_, loc := ?_,
             held := ?_, sending := ?_ }
    · intro p v hv
      obtain ⟨d, h1, h2⟩ := I.map p v hv
      dsimp only
      by_cases hj : v = w
      · subst hj
        rw [h1] at hk; cases hk
        exact ⟨_, get_set_eq h1, h2⟩
      · exact ⟨d, by rw [get_set_ne hj]; exact h1, h2⟩
    · intro d hd hd'
      rcases List.mem_or_eq_of_mem_set hd with h | h
      · exact I.ready d h hd'
      · subst h; exact I.ready k (List.mem_of_getElem? hk) hd'
    · intro d hd hd'
      rcases List.mem_or_eq_of_mem_set hd with h | h
      · exact I.stopped d h hd'
      · subst h; exact hh
    · intro _
      exact ⟨_, List.mem_of_getElem? (get_set_eq hk), hh⟩
    · intro u
      have h1 := I.loc u
      have h2 := count_flatMap_set Wk.holds u s.wks w k { k with pend := r } hk
      simp only [Wk.holds, hp, List.count_append, List.count_cons] at h2
      simp only [St.locs, List.count_append, List.count_cons, List.count_nil] at h1 ⊢
      have : St.isOpen { s with wks := s.wks.set w { k with pend := r }, lost := s.lost ++ [t] } u = s.isOpen u := rfl
      rw [this]
      omega
    · intro v d u hv hu
      rcases get_set hk hv with ⟨h1, h2⟩ | ⟨h1, h2⟩
      · subst h1 h2
        refine I.held _ k u hk ?_
        simp only [Wk.holds, hp, List.mem_append, List.mem_cons] at hu ⊢
        rcases hu with hu | hu
        · exact .inl hu
        · exact .inr (.inr hu)
      · exact I.held v d u h2 hu
    · intro j sync v u rest its hj
      obtain ⟨d, x, h1, h2, h3, h4, h5⟩ := I.sending j sync v u rest its hj
      dsimp only
      by_cases hjw : v = w
      · subst hjw
        rw [h1] at hk; cases hk
        exact ⟨_, x, get_set_eq h1, h2, h3, h4, h5⟩
      · exact ⟨d, x, by rw [get_set_ne hjw]; exact h1, h2, h3, h4, h5⟩
  | @run w k t r x hk hp hx =>
    have htl : t < s.tags.length := get_lt hx
    have hget : ∀ (u : Nat) (y : Tag), (s.tags.set t { x with res := .closed })[u]? = some y → ∃ y0 : Tag, s.tags[u]? = some y0 ∧ y0.part = y.part ∧ y0.call = y.call ∧
        (y.res = .opened → u ≠ t ∧ y0 = y) := by
      intro u y hu
      rcases get_set hx hu with ⟨h1, h2⟩ | ⟨h1, h2⟩
      · subst h1 h2
        exact ⟨x, hx, rfl, rfl, fun h => by cases h⟩
      · exact ⟨y, h2, rfl, rfl, fun _ => ⟨h1, rfl⟩⟩
    have hget' : ∀ (u : Nat) (y0 : Tag), s.tags[u]? = some y0 → ∃ y : Tag, (s.tags.set t { x with res := .closed })[u]? = some y ∧ y.part = y0.part ∧ y.call = y0.call := by
      intro u y0 hu
      by_cases h : u = t
      · subst h
        rw [hx] at hu; cases hu
        exact ⟨_, get_set_eq hx, rfl, rfl⟩
      · exact ⟨y0, by rw [get_set_ne h]; exact hu, rfl, rfl⟩
    refine { mux := I.mux, muxLt := I.muxLt, opened := ?_, own := ?_, caller := ?_, map := ?_, ready := ?_, stopped := ?_, lost := ?_, loc := ?_,
             held := ?_, sending := ?_ }
    · intro p v hv
      obtain ⟨d, h1, h2⟩ := I.map p v hv
      dsimp only
      by_cases hj : v = w
      · subst hj
        rw [h1] at hk; cases hk
        exact ⟨_, get_set_eq h1, h2⟩
      · exact ⟨d, by rw [get_set_ne hj]; exact h1, h2⟩
    · intro d hd hd'
      rcases List.mem_or_eq_of_mem_set hd with h | h
      · exact I.ready d h hd'
      · subst h; exact I.ready k (List.mem_of_getElem? hk) hd'
    · intro d hd hd'
      rcases List.mem_or_eq_of_mem_set hd with h | h
      · exact I.stopped d h hd'
      · subst h; exact I.stopped k (List.mem_of_getElem? hk) hd'
    · intro hl
      obtain ⟨d, h1, h2⟩ := I.lost hl
      obtain ⟨j, hj⟩ := List.mem_iff_getElem?.1 h1
      dsimp only
      by_cases hjw : j = w
      · subst hjw
        rw [hj] at hk; cases hk
        exact ⟨_, List.mem_of_getElem? (get_set_eq hj), h2⟩
      · exact ⟨d, List.mem_of_getElem? (by rw [get_set_ne hjw]; exact hj), h2⟩
    · intro u
      have h1 := I.loc u
      have h2 := count_flatMap_set Wk.holds u s.wks w k { k with pend := r } hk
      simp only [Wk.holds, hp, List.count_append, List.count_cons] at h2
      simp only [St.locs, List.count_append] at h1 ⊢
      by_cases hu : u = t
      · subst hu
        have : St.isOpen { s with wks := s.wks.set w { k with pend := r }, tags := s.tags.set u { x with res := .closed },
                                  trace := s.trace ++ [.ran x.call k.part] } u = false := by
          unfold St.isOpen
          dsimp only
          rw [get_set_eq hx]
          rfl
        rw [this]
        simp at h2
        split at h1 <;> simp <;> omega
      · have : St.isOpen { s with wks := s.wks.set w { k with pend := r }, tags := s.tags.set t { x with res := .closed },
                                  trace := s.trace ++ [.ran x.call k.part] } u = s.isOpen u := by
          unfold St.isOpen
          dsimp only
          rw [get_set_ne hu]
        rw [this]
        have hb : (t == u) = false := by simpa using fun e => hu e.symm
        rw [hb] at h2
        simp at h2
        omega
    · intro v d u hv hu
      rcases get_set hk hv with ⟨h1, h2⟩ | ⟨h1, h2⟩
      · subst h1 h2
        obtain ⟨y0, g1, g2⟩ := I.held _ k u hk (by
          simp only [Wk.holds, hp, List.mem_append, List.mem_cons] at hu ⊢
          rcases hu with hu | hu
          · exact .inl hu
          · exact .inr (.inr hu))
        obtain ⟨y, g3, g4, _⟩ := hget' u y0 g1
        exact ⟨y, g3, by rw [g4, g2]⟩
      · obtain ⟨y0, g1, g2⟩ := I.held v d u h2 hu
        obtain ⟨y, g3, g4, _⟩ := hget' u y0 g1
        exact ⟨y, g3, by rw [g4, g2]⟩
    · intro j sync v u rest its hj
      obtain ⟨d, y0, h1, h2, h3, h4, h5⟩ := I.sending j sync v u rest its hj
      obtain ⟨y, g3, g4, g5⟩ := hget' u y0 h2
      dsimp only
      by_cases hjw : v = w
      · subst hjw
        rw [h1] at hk; cases hk
        exact ⟨_, y, get_set_eq h1, g3, by rw [g4, h3], by rw [g5, h4], h5⟩
      · exact ⟨d, y, by rw [get_set_ne hjw]; exact h1, g3, by rw [g4, h3], by rw [g5, h4], h5⟩
    · intro u y hu ho
      obtain ⟨y0, g1, g2, g3, g4⟩ := hget u y hu
      obtain ⟨_, rfl⟩ := g4 ho
      exact I.opened u y0 g1 ho
    · intro j c u hj hu
      obtain ⟨y0, g1, g2⟩ := I.own j c u hj hu
      obtain ⟨y, g3, g4, g5⟩ := hget' u y0 g1
      exact ⟨y, g3, by rw [g5, g2]⟩
    · intro y hy
      obtain ⟨u, hu⟩ := List.mem_iff_getElem?.1 hy
      obtain ⟨y0, g1, g2, g3, g4⟩ := hget u y hu
      rw [← g3]
      exact I.caller y0 (List.mem_of_getElem? g1)

theorem inv_reach {s : St} (h : Reach s) : Inv s := by
  induction h with
  | init => exact inv_init
  | step _ h ih => exact inv_step ih (tr_of_step h)

end Verif.Interject
