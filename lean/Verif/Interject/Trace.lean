import Verif.Interject.Proofs
import Verif.Interject.Spec
/-
What the traces of `Verif/Interject/Model.lean` have in common.
-/
namespace Verif.Interject

/-- The channels of call `i`. -/
def St.mine (s : St) (i : Nat) : List Tag := s.tags.filter (fun x => x.call = i)

/-- The partitions that a call has still to look at. -/
def Call.rest (c : Call) : List Nat :=
  match c.pc with
  | .next rest _ => rest
  | .sending _ _ rest _ => rest
  | .waiting _ rest => rest
  | _ => []

structure TInv (s : St) : Prop where
  nodup : (s.map.map (·.1)).Nodup
  owned : owned s.trace = s.map.map (·.1)
  fresh : ∀ i, s.calls.length ≤ i → targets i s.trace = [] ∧ outcomes i s.trace = [] ∧ sends i s.trace = []
  start : ∀ (i : Nat) (c : Call), s.calls[i]? = some c → c.pc = .start → targets i s.trace = [] ∧ s.mine i = []
  rest : ∀ (i : Nat) (c : Call), s.calls[i]? = some c → c.pc ≠ .start → targets i s.trace = [(s.mine i).map (·.part) ++ c.rest]
  found : ∀ (i : Nat) ps, ps ∈ targets i s.trace → ps.Nodup
  out : ∀ i p, (outcomes i s.trace).count p = s.tags.countP (fun x => x.call = i ∧ x.part = p ∧ x.res ≠ .opened)
  sent : ∀ (i : Nat) (c : Call), s.calls[i]? = some c → (sends i s.trace).length + c.holds.length = s.tags.countP (fun x => x.call = i ∧ x.res ≠ .err)
  ran : ∀ i, (runs i s.trace).length = s.tags.countP (fun x => x.call = i ∧ x.res = .closed)
  order : ∀ (i : Nat) (c : Call), s.calls[i]? = some c → c.sync = true → outcomes i s.trace = ((s.mine i).filter (fun x => x.res ≠ .opened)).map (·.part)
  last : ∀ (i : Nat) (c : Call), s.calls[i]? = some c → c.sync = true → ∀ t ∈ c.expects, ∀ (u : Nat) (x : Tag), s.tags[u]? = some x → x.call = i → u ≤ t
  ret : ∀ i, Ev.returned i ∈ s.trace → ∃ c : Call, s.calls[i]? = some c ∧ c.pc = .done

theorem tinv_init : TInv St.init := by
  constructor <;> simp [St.init, owned, targets, outcomes, sends, runs]

theorem worker_none {s : St} {p : Nat} (h : s.worker p = none) : p ∉ s.map.map (·.1) := by
  unfold St.worker at h
  simp only [Option.map_eq_none_iff, List.find?_eq_none] at h
  intro hp
  obtain ⟨e, he, heq⟩ := List.mem_map.1 hp
  exact h e he (by simpa using heq)

theorem targets_append (i : Nat) (a b : List Ev) : targets i (a ++ b) = targets i a ++ targets i b := List.filterMap_append
theorem outcomes_append (i : Nat) (a b : List Ev) : outcomes i (a ++ b) = outcomes i a ++ outcomes i b := List.filterMap_append
theorem sends_append (i : Nat) (a b : List Ev) : sends i (a ++ b) = sends i a ++ sends i b := List.filterMap_append
theorem runs_append (i : Nat) (a b : List Ev) : runs i (a ++ b) = runs i a ++ runs i b := List.filterMap_append

/-- An event that concerns no call. -/
def Ev.quiet : Ev → Prop
  | .polled | .assigned _ | .revoked _ => True
  | _ => False

theorem quiet_targets {e : Ev} (h : e.quiet) (i : Nat) : targets i [e] = [] := by cases e <;> first | exact absurd h id | rfl
theorem quiet_outcomes {e : Ev} (h : e.quiet) (i : Nat) : outcomes i [e] = [] := by cases e <;> first | exact absurd h id | rfl
theorem quiet_sends {e : Ev} (h : e.quiet) (i : Nat) : sends i [e] = [] := by cases e <;> first | exact absurd h id | rfl
theorem quiet_runs {e : Ev} (h : e.quiet) (i : Nat) : runs i [e] = [] := by cases e <;> first | exact absurd h id | rfl

theorem owned_append (a : List Ev) (e : Ev) : owned (a ++ [e]) = (match e with
    | .assigned p => owned a ++ [p]
    | .revoked p => (owned a).filter (· ≠ p)
    | _ => owned a) := by
  unfold owned
  rw [List.foldl_append]
  rfl

/-- Steps that leave the calls and channels alone. -/
theorem tinv_same {s s' : St} (T : TInv s) (hc : s'.calls = s.calls) (ht : s'.tags = s.tags) (evs : List Ev) (htr : s'.trace = s.trace ++ evs)
    (hq : ∀ e ∈ evs, e.quiet) (hn : (s'.map.map (·.1)).Nodup) (ho : owned s'.trace = s'.map.map (·.1)) : TInv s' := by
  have q1 : ∀ i, targets i s'.trace = targets i s.trace := by
    intro i; rw [htr, targets_append]
    have : targets i evs = [] := by
      clear htr
      induction evs with
      | nil => rfl
      | cons e evs ih =>
        rw [show e :: evs = [e] ++ evs from rfl, targets_append, quiet_targets (hq e (by simp)), ih (fun e he => hq e (by simp [he]))]; rfl
    rw [this, List.append_nil]
  have q2 : ∀ i, outcomes i s'.trace = outcomes i s.trace := by
    intro i; rw [htr, outcomes_append]
    have : outcomes i evs = [] := by
      clear htr
      induction evs with
      | nil => rfl
      | cons e evs ih =>
        rw [show e :: evs = [e] ++ evs from rfl, outcomes_append, quiet_outcomes (hq e (by simp)), ih (fun e he => hq e (by simp [he]))]; rfl
    rw [this, List.append_nil]
  have q3 : ∀ i, sends i s'.trace = sends i s.trace := by
    intro i; rw [htr, sends_append]
    have : sends i evs = [] := by
      clear htr
      induction evs with
      | nil => rfl
      | cons e evs ih =>
        rw [show e :: evs = [e] ++ evs from rfl, sends_append, quiet_sends (hq e (by simp)), ih (fun e he => hq e (by simp [he]))]; rfl
    rw [this, List.append_nil]
  have q4 : ∀ i, runs i s'.trace = runs i s.trace := by
    intro i; rw [htr, runs_append]
    have : runs i evs = [] := by
      clear htr
      induction evs with
      | nil => rfl
      | cons e evs ih =>
        rw [show e :: evs = [e] ++ evs from rfl, runs_append, quiet_runs (hq e (by simp)), ih (fun e he => hq e (by simp [he]))]; rfl
    rw [this, List.append_nil]
  have q5 : ∀ i, s'.mine i = s.mine i := by intro i; simp only [St.mine, ht]
  refine ⟨hn, ho, ?_, ?_, ?_, ?_, ?_, ?_, ?_, ?_, ?_, ?_⟩
  · intro i hi; rw [q1, q2, q3]; rw [hc] at hi; exact T.fresh i hi
  · intro i c hi; rw [q1, q5]; rw [hc] at hi; exact T.start i c hi
  · intro i c hi; rw [q1, q5]; rw [hc] at hi; exact T.rest i c hi
  · intro i; rw [q1]; exact T.found i
  · intro i; rw [q2, ht]; exact T.out i
  · intro i c hi; rw [q3, ht]; rw [hc] at hi; exact T.sent i c hi
  · intro i; rw [q4, ht]; exact T.ran i
  · intro i c hi; rw [q2, q5]; rw [hc] at hi; exact T.order i c hi
  · intro i c hi; rw [ht]; rw [hc] at hi; exact T.last i c hi
  · intro i hi
    rw [htr] at hi
    rw [hc]
    rcases List.mem_append.1 hi with h | h
    · exact T.ret i h
    · exact absurd (hq _ h) id

/-- A call moves on, no channel changes. `e`: the event, if there is one, is `returned`. -/
theorem tinv_move {s : St} (T : TInv s) {i : Nat} {c c' : Call} {evs : List Ev} (hc : s.calls[i]? = some c) (hsync : c'.sync = c.sync)
    (h0 : c.pc ≠ .start) (h0' : c'.pc ≠ .start) (hr : c'.rest = c.rest) (hh : c'.holds = c.holds) (he : ∀ t ∈ c'.expects, t ∈ c.expects)
    (hd : c.pc ≠ .done) (hev : evs = [] ∨ (evs = [.returned i] ∧ c'.pc = .done)) :
    TInv { s with calls := s.calls.set i c', trace := s.trace ++ evs } := by
  have q1 : ∀ j, targets j (s.trace ++ evs) = targets j s.trace := by
    intro j; rw [targets_append]; rcases hev with h | ⟨h, _⟩ <;> rw [h] <;> simp [targets]
  have q2 : ∀ j, outcomes j (s.trace ++ evs) = outcomes j s.trace := by
    intro j; rw [outcomes_append]; rcases hev with h | ⟨h, _⟩ <;> rw [h] <;> simp [outcomes]
  have q3 : ∀ j, sends j (s.trace ++ evs) = sends j s.trace := by
    intro j; rw [sends_append]; rcases hev with h | ⟨h, _⟩ <;> rw [h] <;> simp [sends]
  have q4 : ∀ j, runs j (s.trace ++ evs) = runs j s.trace := by
    intro j; rw [runs_append]; rcases hev with h | ⟨h, _⟩ <;> rw [h] <;> simp [runs]
  have q6 : owned (s.trace ++ evs) = owned s.trace := by
    rcases hev with h | ⟨h, _⟩ <;> rw [h]
    · rw [List.append_nil]
    · rw [owned_append]
  refine ⟨T.nodup, ?_, ?_, ?_, ?_, ?_, ?_, ?_, ?_, ?_, ?_, ?_⟩
  · dsimp only; rw [q6]; exact T.owned
  · intro j hj; dsimp only at hj ⊢; rw [q1, q2, q3]; rw [List.length_set] at hj; exact T.fresh j hj
  · intro j d hj hs
    dsimp only at hj ⊢
    rw [q1]
    rcases get_set hc hj with ⟨_, h2⟩ | ⟨_, h2⟩
    · subst h2; exact absurd hs h0'
    · exact T.start j d h2 hs
  · intro j d hj hs
    dsimp only at hj ⊢
    rw [q1]
    rcases get_set hc hj with ⟨h1, h2⟩ | ⟨_, h2⟩
    · subst h1 h2; rw [hr]; exact T.rest _ c hc h0
    · exact T.rest j d h2 hs
  · intro j; dsimp only; rw [q1]; exact T.found j
  · intro j; dsimp only; rw [q2]; exact T.out j
  · intro j d hj
    dsimp only at hj ⊢
    rw [q3]
    rcases get_set hc hj with ⟨h1, h2⟩ | ⟨_, h2⟩
    · subst h1 h2; rw [hh]; exact T.sent _ c hc
    · exact T.sent j d h2
  · intro j; dsimp only; rw [q4]; exact T.ran j
  · intro j d hj hs
    dsimp only at hj ⊢
    rw [q2]
    rcases get_set hc hj with ⟨h1, h2⟩ | ⟨_, h2⟩
    · subst h1 h2; rw [hsync] at hs; exact T.order _ c hc hs
    · exact T.order j d h2 hs
  · intro j d hj hs t ht
    dsimp only at hj
    rcases get_set hc hj with ⟨h1, h2⟩ | ⟨_, h2⟩
    · subst h1 h2; rw [hsync] at hs; exact T.last _ c hc hs t (he t ht)
    · exact T.last j d h2 hs t ht
  · intro j hj
    dsimp only at hj ⊢
    by_cases hji : j = i
    · subst hji
      rcases List.mem_append.1 hj with h | h
      · obtain ⟨d, h1, h2⟩ := T.ret j h
        rw [hc] at h1; cases h1
        exact absurd h2 hd
      · rcases hev with h' | ⟨h', h''⟩
        · rw [h'] at h; cases h
        · exact ⟨c', get_set_eq hc, h''⟩
    · rcases List.mem_append.1 hj with h | h
      · obtain ⟨d, h1, h2⟩ := T.ret j h
        exact ⟨d, by rw [get_set_ne hji]; exact h1, h2⟩
      · rcases hev with h' | ⟨h', _⟩
        · rw [h'] at h; cases h
        · rw [h'] at h
          cases List.mem_singleton.1 h
          exact absurd rfl hji

theorem mine_append (s : St) (x : Tag) (j : Nat) : (s.tags ++ [x]).filter (fun y => y.call = j) = s.mine j ++ (if x.call = j then [x] else []) := by
  rw [List.filter_append]
  by_cases h : x.call = j <;> simp [h, St.mine]

theorem open_none {s : St} (I : Inv s) {i : Nat} {c : Call} (hc : s.calls[i]? = some c) (he : c.expects = []) : ∀ x ∈ s.mine i, x.res ≠ .opened := by
  intro x hx ho
  simp only [St.mine, List.mem_filter, decide_eq_true_eq] at hx
  obtain ⟨u, hu⟩ := List.mem_iff_getElem?.1 hx.1
  obtain ⟨d, h1, h2⟩ := I.opened u x hu ho
  rw [hx.2] at h1
  rw [hc] at h1; cases h1
  rw [he] at h2; cases h2

theorem mine_nil {s : St} {i : Nat} (h : ∀ x ∈ s.tags, x.call ≠ i) : s.mine i = [] := by
  rw [St.mine, List.filter_eq_nil_iff]
  intro x hx
  simpa using h x hx

theorem countP_mine_nil {s : St} {i : Nat} (h : ∀ x ∈ s.tags, x.call ≠ i) (f : Tag → Prop) [DecidablePred f] :
    s.tags.countP (fun x => x.call = i ∧ f x) = 0 := by
  rw [List.countP_eq_zero]
  intro x hx
  simp [h x hx]

/-- A new call, with the partitions `ps` that it starts with if it has them already. -/
theorem tinv_new {s : St} (I : Inv s) (T : TInv s) {c : Call} {evs : List Ev} (hh : c.holds = []) (he : c.expects = [])
    (hev : (c.pc = .start ∧ evs = []) ∨ (c.pc ≠ .start ∧ ∃ p, c.rest = [p] ∧ evs = [.single s.calls.length p])) (hd : c.pc ≠ .done) :
    TInv { s with calls := s.calls ++ [c], trace := s.trace ++ evs } := by
  have q1 : ∀ j, j ≠ s.calls.length → targets j (s.trace ++ evs) = targets j s.trace := by
    intro j hj; rw [targets_append]
    rcases hev with ⟨_, h⟩ | ⟨_, p, _, h⟩ <;> rw [h] <;> simp [targets, Ne.symm hj]
  have q2 : ∀ j, outcomes j (s.trace ++ evs) = outcomes j s.trace := by
    intro j; rw [outcomes_append]
    rcases hev with ⟨_, h⟩ | ⟨_, p, _, h⟩ <;> rw [h] <;> simp [outcomes]
  have q3 : ∀ j, sends j (s.trace ++ evs) = sends j s.trace := by
    intro j; rw [sends_append]
    rcases hev with ⟨_, h⟩ | ⟨_, p, _, h⟩ <;> rw [h] <;> simp [sends]
  have q4 : ∀ j, runs j (s.trace ++ evs) = runs j s.trace := by
    intro j; rw [runs_append]
    rcases hev with ⟨_, h⟩ | ⟨_, p, _, h⟩ <;> rw [h] <;> simp [runs]
  have q6 : owned (s.trace ++ evs) = owned s.trace := by
    rcases hev with ⟨_, h⟩ | ⟨_, p, _, h⟩ <;> rw [h]
    · rw [List.append_nil]
    · rw [owned_append]
  have hnone : ∀ x ∈ s.tags, x.call ≠ s.calls.length := fun x hx h => by have := I.caller x hx; omega
  obtain ⟨f1, f2, f3⟩ := T.fresh s.calls.length (Nat.le_refl _)
  refine ⟨T.nodup, ?_, ?_, ?_, ?_, ?_, ?_, ?_, ?_, ?_, ?_, ?_⟩
  · dsimp only; rw [q6]; exact T.owned
  · intro j hj
    simp only [List.length_append, List.length_singleton] at hj
    dsimp only
    rw [q1 j (by omega), q2, q3]
    exact T.fresh j (by omega)
  · intro j d hj hs
    dsimp only at hj ⊢
    rcases get_append hj with ⟨h1, h2⟩ | h
    · subst h1 h2
      rcases hev with ⟨_, h⟩ | ⟨h, _⟩
      · rw [h, List.append_nil]
        exact ⟨f1, mine_nil hnone⟩
      · exact absurd hs h
    · rw [q1 j (by have := get_lt h; omega)]
      exact T.start j d h hs
  · intro j d hj hs
    dsimp only at hj ⊢
    rcases get_append hj with ⟨h1, h2⟩ | h
    · subst h1 h2
      rcases hev with ⟨h, _⟩ | ⟨_, p, h, h'⟩
      · exact absurd h hs
      · have : St.mine { s with calls := s.calls ++ [d], trace := s.trace ++ evs } s.calls.length = [] := mine_nil hnone
        rw [this, targets_append, f1, h', h]
        simp [targets]
    · rw [q1 j (by have := get_lt h; omega)]
      exact T.rest j d h hs
  · intro j ps hps
    dsimp only at hps
    by_cases hj : j = s.calls.length
    · subst hj
      rw [targets_append, f1] at hps
      rcases hev with ⟨_, h⟩ | ⟨_, p, _, h⟩ <;> rw [h] at hps
      · cases hps
      · simp [targets] at hps
        subst hps
        simp
    · rw [q1 j hj] at hps
      exact T.found j ps hps
  · intro j; dsimp only; rw [q2]; exact T.out j
  · intro j d hj
    dsimp only at hj ⊢
    rw [q3]
    rcases get_append hj with ⟨h1, h2⟩ | h
    · subst h1 h2
      rw [f3, hh, countP_mine_nil hnone]; rfl
    · exact T.sent j d h
  · intro j; dsimp only; rw [q4]; exact T.ran j
  · intro j d hj hs
    dsimp only at hj ⊢
    rw [q2]
    rcases get_append hj with ⟨h1, h2⟩ | h
    · subst h1 h2
      have : St.mine { s with calls := s.calls ++ [d], trace := s.trace ++ evs } s.calls.length = [] := mine_nil hnone
      rw [this, f2]; rfl
    · exact T.order j d h hs
  · intro j d hj hs t ht
    dsimp only at hj
    rcases get_append hj with ⟨h1, h2⟩ | h
    · subst h2; rw [he] at ht; cases ht
    · exact T.last j d h hs t ht
  · intro j hj
    dsimp only at hj ⊢
    rcases List.mem_append.1 hj with h | h
    · obtain ⟨d, h1, h2⟩ := T.ret j h
      exact ⟨d, get_app_lt h1, h2⟩
    · rcases hev with ⟨_, h'⟩ | ⟨_, p, _, h'⟩ <;> rw [h'] at h
      · cases h
      · simp at h

/-- A call of `interject` begins. -/
theorem tinv_begin {s : St} (T : TInv s) {i : Nat} {sync : Bool} {p : Nat} {rest its : List Nat} {c' : Call} {res : Res} {m : Option Nat} {evs : List Ev}
    (hc : s.calls[i]? = some ⟨sync, .next (p :: rest) its⟩) (hsync : c'.sync = sync) (h0' : c'.pc ≠ .start) (hr : c'.rest = rest)
    (he : ∀ t ∈ c'.expects, t ∈ (if sync then [] else its) ∨ t = s.tags.length)
    (hres : (res = .opened ∧ c'.holds = [s.tags.length] ∧ evs = []) ∨ (res = .err ∧ c'.holds = [] ∧ evs = [.refused i p])) :
    TInv { s with calls := s.calls.set i c', mux := m, tags := s.tags ++ [⟨i, p, res⟩], trace := s.trace ++ evs } := by
  have q1 : ∀ j, targets j (s.trace ++ evs) = targets j s.trace := by
    intro j; rw [targets_append]; rcases hres with ⟨_, _, h⟩ | ⟨_, _, h⟩ <;> rw [h] <;> simp [targets]
  have q2 : ∀ j, outcomes j (s.trace ++ evs) = outcomes j s.trace ++ (if j = i ∧ res ≠ .opened then [p] else []) := by
    intro j; rw [outcomes_append]
    rcases hres with ⟨h1, _, h⟩ | ⟨h1, _, h⟩ <;> rw [h, h1]
    · simp [outcomes]
    · by_cases hj : j = i
      · subst hj; simp [outcomes]
      · simp [outcomes, hj, Ne.symm hj]
  have q3 : ∀ j, sends j (s.trace ++ evs) = sends j s.trace := by
    intro j; rw [sends_append]; rcases hres with ⟨_, _, h⟩ | ⟨_, _, h⟩ <;> rw [h] <;> simp [sends]
  have q4 : ∀ j, runs j (s.trace ++ evs) = runs j s.trace := by
    intro j; rw [runs_append]; rcases hres with ⟨_, _, h⟩ | ⟨_, _, h⟩ <;> rw [h] <;> simp [runs]
  have q6 : owned (s.trace ++ evs) = owned s.trace := by
    rcases hres with ⟨_, _, h⟩ | ⟨_, _, h⟩ <;> rw [h]
    · rw [List.append_nil]
    · rw [owned_append]
  have hmine : ∀ j, St.mine { s with calls := s.calls.set i c', mux := m, tags := s.tags ++ [⟨i, p, res⟩], trace := s.trace ++ evs } j =
      s.mine j ++ (if i = j then [⟨i, p, res⟩] else []) := fun j => mine_append s ⟨i, p, res⟩ j
  have hlt : i < s.calls.length := get_lt hc
  refine ⟨T.nodup, ?_, ?_, ?_, ?_, ?_, ?_, ?_, ?_, ?_, ?_, ?_⟩
  · dsimp only; rw [q6]; exact T.owned
  · intro j hj
    dsimp only at hj ⊢
    rw [List.length_set] at hj
    rw [q1, q2, q3, if_neg (by omega), List.append_nil]
    exact T.fresh j hj
  · intro j d hj hs
    dsimp only at hj
    rw [hmine]
    dsimp only
    rw [q1]
    rcases get_set hc hj with ⟨_, h2⟩ | ⟨h1, h2⟩
    · subst h2; exact absurd hs h0'
    · rw [if_neg (fun e => h1 e.symm), List.append_nil]
      exact T.start j d h2 hs
  · intro j d hj hs
    dsimp only at hj
    rw [hmine]
    dsimp only
    rw [q1]
    rcases get_set hc hj with ⟨h1, h2⟩ | ⟨h1, h2⟩
    · subst h1 h2
      have := T.rest _ _ hc (by simp)
      rw [this, hr, if_pos rfl]
      simp [Call.rest]
    · rw [if_neg (fun e => h1 e.symm), List.append_nil]
      exact T.rest j d h2 hs
  · intro j; dsimp only; rw [q1]; exact T.found j
  · intro j q
    dsimp only
    rw [q2, List.count_append, List.countP_append, T.out j q]
    congr 1
    by_cases hj : j = i
    · subst hj
      by_cases hr : res = .opened
      · simp [hr]
      · by_cases hq : p = q <;> simp [hr, hq]
    · simp [hj, Ne.symm hj]
  · intro j d hj
    dsimp only at hj ⊢
    rw [q3, List.countP_append]
    rcases get_set hc hj with ⟨h1, h2⟩ | ⟨h1, h2⟩
    · subst h1 h2
      have := T.sent _ _ hc
      simp only [Call.holds, List.length_nil] at this
      rcases hres with ⟨h1, h2, h⟩ | ⟨h1, h2, h⟩ <;> rw [h1, h2]
      · simp at this ⊢; exact this
      · simp at this ⊢; exact this
    · have := T.sent j d h2
      rw [this]
      simp [Ne.symm h1]
  · intro j
    dsimp only
    rw [q4, List.countP_append, T.ran j]
    rcases hres with ⟨h1, h2, h⟩ | ⟨h1, h2, h⟩ <;> rw [h1] <;> simp
  · intro j d hj hs
    dsimp only at hj
    rw [hmine]
    dsimp only
    rw [q2]
    rcases get_set hc hj with ⟨h1, h2⟩ | ⟨h1, h2⟩
    · subst h1 h2
      rw [hsync] at hs
      rw [T.order _ _ hc hs, if_pos rfl, List.filter_append, List.map_append]
      by_cases hr : res = .opened <;> simp [hr]
    · rw [if_neg (show ¬ i = j from fun e => h1 e.symm), if_neg (show ¬ (j = i ∧ res ≠ .opened) from fun e => h1 e.1), List.append_nil, List.append_nil]
      exact T.order j d h2 hs
  · intro j d hj hs t ht u x hu hx
    dsimp only at hj hu
    rcases get_set hc hj with ⟨h1, h2⟩ | ⟨h1, h2⟩
    · subst h1 h2
      rw [hsync] at hs
      rcases he t ht with h | h
      · rw [hs] at h; simp at h
      · have := get_lt hu
        simp only [List.length_append, List.length_singleton] at this
        omega
    · rcases get_append hu with ⟨g1, g2⟩ | g
      · subst g2
        exact absurd hx.symm h1
      · exact T.last j d h2 hs t ht u x g hx
  · intro j hj
    dsimp only at hj ⊢
    have hin : Ev.returned j ∈ s.trace := by
      rcases List.mem_append.1 hj with h | h
      · exact h
      · rcases hres with ⟨_, _, h'⟩ | ⟨_, _, h'⟩ <;> rw [h'] at h
        · cases h
        · simp at h
    obtain ⟨d, h1, h2⟩ := T.ret j hin
    by_cases hji : j = i
    · subst hji
      rw [hc] at h1; cases h1; cases h2
    · exact ⟨d, by rw [get_set_ne hji]; exact h1, h2⟩

theorem filter_set_split {l : List Tag} {t : Nat} {x : Tag} (h : l[t]? = some x) (y : Tag) (f : Tag → Bool) :
    (l.set t y).filter f = (l.take t).filter f ++ (if f y then [y] else []) ++ (l.drop (t + 1)).filter f := by
  have hl := get_lt h
  rw [List.set_eq_take_append_cons_drop, if_pos hl, List.filter_append, List.filter_cons, List.append_assoc]
  by_cases hf : f y <;> simp [hf]

theorem filter_split {l : List Tag} {t : Nat} {x : Tag} (h : l[t]? = some x) (f : Tag → Bool) :
    l.filter f = (l.take t).filter f ++ (if f x then [x] else []) ++ (l.drop (t + 1)).filter f := by
  have := filter_set_split h x f
  obtain ⟨hl, hx⟩ := List.getElem?_eq_some_iff.1 h
  subst hx
  rw [List.set_getElem_self] at this
  exact this

/-- The outcomes of a sequential call grow in the order of its channels. -/
theorem order_run {s : St} (I : Inv s) (T : TInv s) {t : Nat} {x : Tag} {c : Call} (hx : s.tags[t]? = some x) (ho : x.res = .opened)
    (hc : s.calls[x.call]? = some c) (hs : c.sync = true) :
    (((s.tags.set t { x with res := .closed }).filter (fun y => y.call = x.call)).filter (fun y => y.res ≠ .opened)).map (·.part) =
      ((s.mine x.call).filter (fun y => y.res ≠ .opened)).map (·.part) ++ [x.part] := by
  obtain ⟨d, h1, h2⟩ := I.opened t x hx ho
  rw [hc] at h1; cases h1
  have hdrop : (s.tags.drop (t + 1)).filter (fun y => decide (y.call = x.call)) = [] := by
    rw [List.filter_eq_nil_iff]
    intro y hy
    obtain ⟨u, hu⟩ := List.mem_iff_getElem?.1 hy
    rw [List.getElem?_drop] at hu
    simp only [decide_eq_true_eq]
    intro hyc
    have := T.last _ c hc hs t h2 _ y hu hyc
    omega
  rw [filter_set_split hx, St.mine, filter_split hx, hdrop]
  simp [List.filter_append, ho]

theorem tinv_step {s s' : St} {l : Label} (I : Inv s) (T : TInv s) (h : Tr s l s') : TInv s' := by
  cases h with
  | @call sync =>
    have := tinv_new (c := ⟨sync, .start⟩) (evs := []) I T rfl rfl (.inl ⟨rfl, rfl⟩) (by simp)
    rw [List.append_nil] at this
    exact this
  | @one p => exact tinv_new I T rfl rfl (.inr ⟨by simp, p, rfl, rfl⟩) (by simp)
  | @snap i ps sync hc hm hp =>
    obtain ⟨g1, g2⟩ := T.start i _ hc rfl
    have q1 : ∀ j, targets j (s.trace ++ [.found i ps]) = targets j s.trace ++ (if i = j then [ps] else []) := by
      intro j; rw [targets_append]; by_cases h : i = j <;> simp [targets, h]
    have q2 : ∀ j, outcomes j (s.trace ++ [.found i ps]) = outcomes j s.trace := by
      intro j; rw [outcomes_append]; simp [outcomes]
    have q3 : ∀ j, sends j (s.trace ++ [.found i ps]) = sends j s.trace := by
      intro j; rw [sends_append]; simp [sends]
    have q4 : ∀ j, runs j (s.trace ++ [.found i ps]) = runs j s.trace := by
      intro j; rw [runs_append]; simp [runs]
    have hlt : i < s.calls.length := get_lt hc
    refine ⟨T.nodup, ?_, ?_, ?_, ?_, ?_, ?_, ?_, ?_, ?_, ?_, ?_⟩
    · dsimp only; rw [owned_append]; exact T.owned
    · intro j hj
      dsimp only at hj ⊢
      rw [List.length_set] at hj
      rw [q1, q2, q3, if_neg (by omega), List.append_nil]
      exact T.fresh j hj
    · intro j d hj hs
      dsimp only at hj ⊢
      rw [q1]
      rcases get_set hc hj with ⟨_, h2⟩ | ⟨h1, h2⟩
      · subst h2; cases hs
      · rw [if_neg (fun e => h1 e.symm), List.append_nil]
        exact T.start j d h2 hs
    · intro j d hj hs
      dsimp only at hj ⊢
      rw [q1]
      rcases get_set hc hj with ⟨h1, h2⟩ | ⟨h1, h2⟩
      · subst h1 h2
        have : St.mine { s with calls := s.calls.set j ⟨sync, .next ps []⟩, trace := s.trace ++ [.found j ps] } j = s.mine j := rfl
        rw [this, g1, g2, if_pos rfl]
        rfl
      · rw [if_neg (fun e => h1 e.symm), List.append_nil]
        exact T.rest j d h2 hs
    · intro j qs hq
      dsimp only at hq
      rw [q1] at hq
      rcases List.mem_append.1 hq with h | h
      · exact T.found j qs h
      · split at h
        · cases List.mem_singleton.1 h
          exact hp.nodup_iff.2 T.nodup
        · cases h
    · intro j; dsimp only; rw [q2]; exact T.out j
    · intro j d hj
      dsimp only at hj ⊢
      rw [q3]
      rcases get_set hc hj with ⟨h1, h2⟩ | ⟨_, h2⟩
      · subst h1 h2
        have := T.sent _ _ hc
        exact this
      · exact T.sent j d h2
    · intro j; dsimp only; rw [q4]; exact T.ran j
    · intro j d hj hs
      dsimp only at hj ⊢
      rw [q2]
      rcases get_set hc hj with ⟨h1, h2⟩ | ⟨_, h2⟩
      · subst h1 h2; exact T.order _ _ hc hs
      · exact T.order j d h2 hs
    · intro j d hj hs t ht
      dsimp only at hj
      rcases get_set hc hj with ⟨h1, h2⟩ | ⟨_, h2⟩
      · subst h1 h2; simp only [Call.expects] at ht; simp at ht
      · exact T.last j d h2 hs t ht
    · intro j hj
      dsimp only at hj ⊢
      rcases List.mem_append.1 hj with h | h
      · obtain ⟨d, h1, h2⟩ := T.ret j h
        by_cases hji : j = i
        · subst hji
          rw [hc] at h1; cases h1; cases h2
        · exact ⟨d, by rw [get_set_ne hji]; exact h1, h2⟩
      · simp at h
  | @beginSend i sync p rest its w k hc hm hw hk hr =>
    have := tinv_begin (c' := ⟨sync, .sending w s.tags.length rest its⟩) (res := .opened) (m := some i) (evs := []) T hc rfl (by simp) rfl
      (by intro t ht; simp only [Call.expects] at ht; rcases List.mem_append.1 ht with h | h
          · exact .inl h
          · exact .inr (List.mem_singleton.1 h))
      (.inl ⟨rfl, rfl, rfl⟩)
    rw [List.append_nil] at this
    exact this
  | @beginErr i sync p rest its hc hm =>
    exact tinv_begin (c' := ⟨sync, after sync s.tags.length rest its⟩) (res := .err) (m := s.mux) (evs := [.refused i p]) T hc rfl
      (by cases sync <;> simp [after]) (by cases sync <;> rfl)
      (by intro t ht; rw [expects_after] at ht; rcases List.mem_append.1 ht with h | h
          · exact .inl h
          · exact .inr (List.mem_singleton.1 h))
      (.inr ⟨rfl, holds_after _ _ _ _, rfl⟩)
  | @send i sync w t rest its k hc hk hn =>
    have q1 : ∀ j, targets j (s.trace ++ [.sent i k.part]) = targets j s.trace := by
      intro j; rw [targets_append]; simp [targets]
    have q2 : ∀ j, outcomes j (s.trace ++ [.sent i k.part]) = outcomes j s.trace := by
      intro j; rw [outcomes_append]; simp [outcomes]
    have q3 : ∀ j, (sends j (s.trace ++ [.sent i k.part])).length = (sends j s.trace).length + (if i = j then 1 else 0) := by
      intro j; rw [sends_append]; by_cases h : i = j <;> simp [sends, h]
    have q4 : ∀ j, runs j (s.trace ++ [.sent i k.part]) = runs j s.trace := by
      intro j; rw [runs_append]; simp [runs]
    have hns : (after sync t rest its) ≠ .start := by cases sync <;> simp [after]
    have hrest : Call.rest ⟨sync, after sync t rest its⟩ = rest := by cases sync <;> rfl
    have hlt : i < s.calls.length := get_lt hc
    refine ⟨T.nodup, ?_, ?_, ?_, ?_, ?_, ?_, ?_, ?_, ?_, ?_, ?_⟩
    · dsimp only; rw [owned_append]; exact T.owned
    · intro j hj
      dsimp only at hj ⊢
      rw [List.length_set] at hj
      obtain ⟨f1, f2, f3⟩ := T.fresh j hj
      rw [q1, q2]
      refine ⟨f1, f2, ?_⟩
      apply List.eq_nil_of_length_eq_zero
      rw [q3, f3, if_neg (by omega)]; rfl
    · intro j d hj hs
      dsimp only at hj ⊢
      rw [q1]
      rcases get_set hc hj with ⟨_, h2⟩ | ⟨h1, h2⟩
      · subst h2; exact absurd hs hns
      · exact T.start j d h2 hs
    · intro j d hj hs
      dsimp only at hj ⊢
      rw [q1]
      rcases get_set hc hj with ⟨h1, h2⟩ | ⟨h1, h2⟩
      · subst h1 h2
        rw [hrest]
        exact T.rest _ _ hc (by simp)
      · exact T.rest j d h2 hs
    · intro j; dsimp only; rw [q1]; exact T.found j
    · intro j; dsimp only; rw [q2]; exact T.out j
    · intro j d hj
      dsimp only at hj ⊢
      rw [q3]
      rcases get_set hc hj with ⟨h1, h2⟩ | ⟨h1, h2⟩
      · subst h1 h2
        have := T.sent _ _ hc
        rw [holds_after, if_pos rfl]
        exact this
      · rw [if_neg (fun e => h1 e.symm)]
        exact T.sent j d h2
    · intro j; dsimp only; rw [q4]; exact T.ran j
    · intro j d hj hs
      dsimp only at hj ⊢
      rw [q2]
      rcases get_set hc hj with ⟨h1, h2⟩ | ⟨_, h2⟩
      · subst h1 h2; exact T.order _ _ hc hs
      · exact T.order j d h2 hs
    · intro j d hj hs u hu
      dsimp only at hj
      rcases get_set hc hj with ⟨h1, h2⟩ | ⟨_, h2⟩
      · subst h1 h2
        rw [expects_after] at hu
        exact T.last _ _ hc hs u hu
      · exact T.last j d h2 hs u hu
    · intro j hj
      dsimp only at hj ⊢
      rcases List.mem_append.1 hj with h | h
      · obtain ⟨d, h1, h2⟩ := T.ret j h
        by_cases hji : j = i
        · subst hji
          rw [hc] at h1; cases h1; cases h2
        · exact ⟨d, by rw [get_set_ne hji]; exact h1, h2⟩
      · simp at h
  | @recvSync i sync t rest hc ha =>
    have := tinv_move (c' := ⟨sync, .next rest []⟩) (evs := []) T hc rfl (by simp) (by simp) rfl rfl (by intro u hu; cases sync <;> simp [Call.expects] at hu)
      (by simp) (.inl rfl)
    rw [List.append_nil] at this
    exact this
  | @recv i sync t its hc ha =>
    have := tinv_move (c' := ⟨sync, .collect its⟩) (evs := []) T hc rfl (by simp) (by simp) rfl rfl
      (by intro u hu; simp only [Call.expects] at hu ⊢; exact List.mem_cons_of_mem _ hu) (by simp) (.inl rfl)
    rw [List.append_nil] at this
    exact this
  | @finSync i its hc => exact tinv_move T hc rfl (by simp) (by simp) rfl rfl (by simp [Call.expects]) (by simp) (.inr ⟨rfl, rfl⟩)
  | @finAll i its hc =>
    have := tinv_move (c' := ⟨false, .collect its⟩) (evs := []) T hc rfl (by simp) (by simp) rfl rfl (by intro u hu; exact hu) (by simp) (.inl rfl)
    rw [List.append_nil] at this
    exact this
  | @fin i sync hc => exact tinv_move T hc rfl (by simp) (by simp) rfl rfl (by simp [Call.expects]) (by simp) (.inr ⟨rfl, rfl⟩)
  | @assign p hm hn =>
    refine tinv_same T rfl rfl [.assigned p] rfl (by simp [Ev.quiet]) ?_ ?_
    · simp only [List.map_append, List.map_cons, List.map_nil]
      rw [List.nodup_append]
      refine ⟨T.nodup, by simp, ?_⟩
      intro a ha b hb hab
      simp only [List.mem_singleton] at hb
      subst hab hb
      exact worker_none hn ha
    · dsimp only
      rw [owned_append, T.owned]
      simp
  | @revoke p w k hm hw hk =>
    refine tinv_same T rfl rfl [.revoked p] rfl (by simp [Ev.quiet]) ?_ ?_
    · exact T.nodup.sublist (List.filter_sublist.map _)
    · dsimp only
      rw [owned_append, T.owned]
      dsimp only
      rw [List.filter_map]
      rfl
  | revokeNone => exact T
  | halt => exact tinv_same T rfl rfl [] (by simp) (by simp) T.nodup T.owned
  | receive hm => exact tinv_same T rfl rfl [.polled] rfl (by simp [Ev.quiet]) T.nodup (by dsimp only; rw [owned_append]; exact T.owned)
  | ready => exact tinv_same T rfl rfl [] (by simp) (by simp) T.nodup T.owned
  | takeLost => exact tinv_same T rfl rfl [] (by simp) (by simp) T.nodup T.owned
  | take => exact tinv_same T rfl rfl [] (by simp) (by simp) T.nodup T.owned
  | stop => exact tinv_same T rfl rfl [] (by simp) (by simp) T.nodup T.owned
  | drop => exact tinv_same T rfl rfl [] (by simp) (by simp) T.nodup T.owned
  | @run w k t r x hk hp hx =>
    have hmem : t ∈ k.holds := by simp [Wk.holds, hp]
    have ho : x.res = .opened := by
      have h1 := I.loc t
      have h2 : 0 < s.locs.count t := List.count_pos_iff.2 (by
        simp only [St.locs, List.mem_append, List.mem_flatMap]
        exact .inl ⟨k, List.mem_of_getElem? hk, hmem⟩)
      split at h1
      · rename_i h
        obtain ⟨y, g1, g2⟩ := isOpen_iff.1 h
        rw [hx] at g1; cases g1
        exact g2
      · omega
    have hpart : x.part = k.part := by
      obtain ⟨y, g1, g2⟩ := I.held w k t hk hmem
      rw [hx] at g1; cases g1
      exact g2
    obtain ⟨c, hc, hce⟩ := I.opened t x hx ho
    have q1 : ∀ j, targets j (s.trace ++ [.ran x.call k.part]) = targets j s.trace := by
      intro j; rw [targets_append]; simp [targets]
    have q2 : ∀ j, outcomes j (s.trace ++ [.ran x.call k.part]) = outcomes j s.trace ++ (if x.call = j then [x.part] else []) := by
      intro j; rw [outcomes_append]; by_cases h : x.call = j <;> simp [outcomes, h, hpart]
    have q3 : ∀ j, sends j (s.trace ++ [.ran x.call k.part]) = sends j s.trace := by
      intro j; rw [sends_append]; simp [sends]
    have q4 : ∀ j, (runs j (s.trace ++ [.ran x.call k.part])).length = (runs j s.trace).length + (if x.call = j then 1 else 0) := by
      intro j; rw [runs_append]; by_cases h : x.call = j <;> simp [runs, h]
    have hmp : ∀ j, ((s.tags.set t { x with res := .closed }).filter (fun y => y.call = j)).map (·.part) = (s.mine j).map (·.part) := by
      intro j
      rw [filter_set_split hx, St.mine, filter_split hx]
      by_cases h : x.call = j <;> simp [h]
    have hmn : ∀ j, x.call ≠ j → (s.tags.set t { x with res := .closed }).filter (fun y => y.call = j) = s.mine j := by
      intro j hj
      rw [filter_set_split hx, St.mine, filter_split hx]
      simp [hj]
    refine ⟨T.nodup, ?_, ?_, ?_, ?_, ?_, ?_, ?_, ?_, ?_, ?_, ?_⟩
    · dsimp only; rw [owned_append]; exact T.owned
    · intro j hj
      dsimp only at hj ⊢
      have := get_lt hc
      rw [q1, q2, q3, if_neg (by omega), List.append_nil]
      exact T.fresh j hj
    · intro j d hj hs
      dsimp only at hj ⊢
      rw [q1]
      obtain ⟨g1, g2⟩ := T.start j d hj hs
      refine ⟨g1, ?_⟩
      have := hmp j
      rw [g2] at this
      exact List.map_eq_nil_iff.1 this
    · intro j d hj hs
      dsimp only at hj ⊢
      rw [q1, T.rest j d hj hs, ← hmp j]
      rfl
    · intro j; dsimp only; rw [q1]; exact T.found j
    · intro j p
      dsimp only
      rw [q2, List.count_append, T.out j p]
      have := countP_set (fun y => decide (y.call = j ∧ y.part = p ∧ y.res ≠ .opened)) s.tags t x { x with res := .closed } hx
      by_cases hj : x.call = j
      · by_cases hq : x.part = p
        · simp only [hj, hq, ho, if_true] at this ⊢
          simp at this ⊢
          omega
        · simp only [hj, hq, ho, if_true] at this ⊢
          simp [hq] at this ⊢
          omega
      · simp only [hj, if_false] at this ⊢
        simp at this ⊢
        omega
    · intro j d hj
      dsimp only at hj ⊢
      rw [q3, T.sent j d hj]
      have := countP_set (fun y => decide (y.call = j ∧ y.res ≠ .err)) s.tags t x { x with res := .closed } hx
      by_cases hj : x.call = j
      · simp [hj, ho] at this ⊢
        omega
      · simp [hj] at this ⊢
        omega
    · intro j
      dsimp only
      rw [q4, T.ran j]
      have := countP_set (fun y => decide (y.call = j ∧ y.res = .closed)) s.tags t x { x with res := .closed } hx
      by_cases hj : x.call = j
      · simp [hj, ho] at this ⊢
        omega
      · simp [hj] at this ⊢
        omega
    · intro j d hj hs
      dsimp only at hj ⊢
      rw [q2]
      by_cases hxj : x.call = j
      · subst hxj
        rw [if_pos rfl, T.order _ d hj hs, ← order_run I T hx ho hj hs]
        rfl
      · rw [if_neg hxj, List.append_nil, T.order j d hj hs]
        simp only [St.mine]
        rw [hmn j hxj]
        rfl
    · intro j d hj hs u hu v y hv hy
      dsimp only at hj hv
      rcases get_set hx hv with ⟨h1, h2⟩ | ⟨h1, h2⟩
      · subst h1 h2
        exact T.last j d hj hs u hu v x hx hy
      · exact T.last j d hj hs u hu v y h2 hy
    · intro j hj
      dsimp only at hj ⊢
      rcases List.mem_append.1 hj with h | h
      · exact T.ret j h
      · simp at h

theorem tinv_reach {s : St} (h : Reach s) : TInv s := by
  induction h with
  | init => exact tinv_init
  | step hr h ih => exact tinv_step (inv_reach hr) ih (tr_of_step h)

theorem done_returned {s : St} (hr : Reach s) : ∀ (i : Nat) (c : Call), s.calls[i]? = some c → c.pc = .done → Ev.returned i ∈ s.trace := by
  induction hr with
  | init => intro i c hi; simp [St.init] at hi
  | @step s s' l hr h ih =>
    have key : ∀ (i : Nat) (c c' : Call) (evs : List Ev), s.calls[i]? = some c → (c'.pc = .done → Ev.returned i ∈ evs) →
        ∀ (j : Nat) (d : Call), (s.calls.set i c')[j]? = some d → d.pc = .done → Ev.returned j ∈ s.trace ++ evs := by
      intro i c c' evs hc hd j d hj hdd
      rcases get_set hc hj with ⟨h1, h2⟩ | ⟨h1, h2⟩
      · subst h1 h2; exact List.mem_append_right _ (hd hdd)
      · exact List.mem_append_left _ (ih j d h2 hdd)
    have keyn : ∀ (c' : Call) (evs : List Ev), c'.pc ≠ .done →
        ∀ (j : Nat) (d : Call), (s.calls ++ [c'])[j]? = some d → d.pc = .done → Ev.returned j ∈ s.trace ++ evs := by
      intro c' evs hd j d hj hdd
      rcases get_append hj with ⟨h1, h2⟩ | h
      · subst h2; exact absurd hdd hd
      · exact List.mem_append_left _ (ih j d h hdd)
    have hnd : ∀ sync t rest its, after sync t rest its ≠ .done := by intro sync t rest its; cases sync <;> simp [after]
    cases tr_of_step h with
    | @call sync => have := keyn ⟨sync, .start⟩ [] (by simp); rw [List.append_nil] at this; exact this
    | one => exact keyn _ _ (by simp)
    | snap hc => exact key _ _ _ _ hc (by simp)
    | @beginSend i sync p rest its w k hc => have := key i _ ⟨sync, .sending w s.tags.length rest its⟩ [] hc (by simp); rw [List.append_nil] at this; exact this
    | beginErr hc => exact key _ _ _ _ hc (fun h => absurd h (hnd _ _ _ _))
    | send hc => exact key _ _ _ _ hc (fun h => absurd h (hnd _ _ _ _))
    | @recvSync i sync t rest hc => have := key i _ ⟨sync, .next rest []⟩ [] hc (by simp); rw [List.append_nil] at this; exact this
    | @recv i sync t its hc => have := key i _ ⟨sync, .collect its⟩ [] hc (by simp); rw [List.append_nil] at this; exact this
    | finSync hc => exact key _ _ _ _ hc (by simp)
    | @finAll i its hc => have := key i _ ⟨false, .collect its⟩ [] hc (by simp); rw [List.append_nil] at this; exact this
    | fin hc => exact key _ _ _ _ hc (by simp)
    | assign | revoke | receive | run => exact fun i c hi hd => List.mem_append_left _ (ih i c hi hd)
    | _ => exact ih

end Verif.Interject
