import Verif.Batcher.Model
/-
Invariants of the batcher: structure of the executors, who waits for whom, and order of the items.
-/
namespace Verif.Batcher

set_option linter.unusedSectionVars false
set_option linter.unusedTactic false
set_option linter.unreachableTactic false
set_option linter.unusedSimpArgs false

variable {K : Type} [DecidableEq K]

@[simp] theorem upd_self {A B : Type} [DecidableEq A] (f : A → B) (a : A) (b : B) : upd f a b a = b := by simp [upd]
theorem upd_ne {A B : Type} [DecidableEq A] (f : A → B) {a c : A} (b : B) (h : c ≠ a) : upd f a b c = f c := by simp [upd, h]

/-- Number of executing executors. -/
def busy (f : Nat → Exec K) (n : Nat) : Nat := (List.range n).countP fun i => (f i).executing

theorem busy_le (f : Nat → Exec K) (n : Nat) : busy f n ≤ n := by
  have := List.countP_le_length (p := fun i => (f i).executing) (l := List.range n)
  simpa [busy] using this

theorem busy_succ (f : Nat → Exec K) (n : Nat) : busy f (n + 1) = busy f n + if (f n).executing then 1 else 0 := by
  simp [busy, List.range_succ, List.countP_append, List.countP_cons]

theorem busy_congr {f g : Nat → Exec K} {n : Nat} (h : ∀ i, i < n → (f i).executing = (g i).executing) : busy f n = busy g n := by
  induction n with
  | zero => rfl
  | succ n ih => rw [busy_succ, busy_succ, ih (fun i hi => h i (by omega)), h n (by omega)]

theorem busy_upd_same {f : Nat → Exec K} {i : Nat} {e : Exec K} (n : Nat) (h : e.executing = (f i).executing) : busy (upd f i e) n = busy f n := by
  apply busy_congr
  intro j _
  by_cases hj : j = i
  · subst hj; rw [upd_self, h]
  · rw [upd_ne _ _ hj]

theorem busy_upd_on {f : Nat → Exec K} {i n : Nat} {e : Exec K} (hi : i < n) (h0 : (f i).executing = false) (h : e.executing = true) :
    busy (upd f i e) n = busy f n + 1 := by
  induction n with
  | zero => omega
  | succ n ih =>
    rw [busy_succ, busy_succ]
    by_cases hn : i = n
    · subst hn
      rw [upd_self, h, h0, busy_congr (g := f)]
      · simp
      · intro j hj; rw [upd_ne _ _ (by omega)]
    · rw [ih (by omega), upd_ne _ _ (by omega)]; omega

theorem busy_upd_off {f : Nat → Exec K} {i n : Nat} {e : Exec K} (hi : i < n) (h0 : (f i).executing = true) (h : e.executing = false) :
    busy (upd f i e) n + 1 = busy f n := by
  induction n with
  | zero => omega
  | succ n ih =>
    rw [busy_succ, busy_succ]
    by_cases hn : i = n
    · subst hn
      rw [upd_self, h, h0, busy_congr (g := f)]
      · simp
      · intro j hj; rw [upd_ne _ _ (by omega)]
    · have := ih (by omega)
      rw [upd_ne _ _ (by omega)]; omega

theorem busy_full {f : Nat → Exec K} {n : Nat} (h : busy f n = n) : ∀ i, i < n → (f i).executing = true := by
  induction n with
  | zero => intro i hi; omega
  | succ n ih =>
    rw [busy_succ] at h
    have hle := busy_le f n
    intro i hi
    split at h
    · rename_i hn
      by_cases e : i = n
      · subst e; exact hn
      · exact ih (by omega) i (by omega)
    · omega

theorem busy_lt {f : Nat → Exec K} {n : Nat} (h : busy f n ≠ n) : ∃ i, i < n ∧ (f i).executing = false := by
  by_contra hc
  push Not at hc
  apply h
  have : busy f n = busy (fun _ => ({ executing := true } : Exec K)) n :=
    busy_congr fun i hi => by have := hc i hi; simpa using this
  rw [this]
  simp [busy]

/-! ### One executor -/

/-- A goroutine of an executing executor is inside the loops over its own items. -/
def Phase.ok (e : Exec K) : Phase K → Prop
  | .queued => True
  | .running => e.items ≠ []
  | .completing r => r <:+ e.items
  | .nooping r => r <:+ e.noops

/-- Consistency of one executor. -/
structure EOk (max : Nat) (e : Exec K) : Prop where
  idle : e.executing = false → e.gos = []
  go : e.executing = true → ∃ p, e.gos = [p] ∧ p.ok e
  room : e.executing = false → e.items.length + e.noops.length < max
  size : e.items.length + e.noops.length ≤ max
  timed : e.executing = false → 0 < e.items.length + e.noops.length → e.timer ≠ .nil
  untimed : e.executing = true → e.timer = .nil
  fired : e.timer = .fired → 1 ≤ e.late
  kindI : ∀ x ∈ e.items, x.noop = false
  kindN : ∀ x ∈ e.noops, x.noop = true

/-- `addToExecutor` seen from the executor. -/
def addE (max : Nat) (e : Exec K) (x : Item K) : Exec K :=
  if (e.add x).items.length + (e.add x).noops.length = max then
    { e.add x with executing := true, timer := .nil, gos := (e.add x).gos ++ [.queued] }
  else if (e.add x).timer = .nil then { e.add x with timer := .armed } else e.add x

theorem add_executing (e : Exec K) (x : Item K) : (e.add x).executing = e.executing := by unfold Exec.add; split <;> rfl
theorem add_gos (e : Exec K) (x : Item K) : (e.add x).gos = e.gos := by unfold Exec.add; split <;> rfl
theorem add_timer (e : Exec K) (x : Item K) : (e.add x).timer = e.timer := by unfold Exec.add; split <;> rfl
theorem add_late (e : Exec K) (x : Item K) : (e.add x).late = e.late := by unfold Exec.add; split <;> rfl
theorem add_len (e : Exec K) (x : Item K) : (e.add x).items.length + (e.add x).noops.length = e.items.length + e.noops.length + 1 := by
  unfold Exec.add; split <;> simp <;> omega

theorem addE_items (max : Nat) (e : Exec K) (x : Item K) : (addE max e x).items = e.items ++ if x.noop then [] else [x] := by
  unfold addE Exec.add; split <;> split <;> (try split) <;> simp_all

theorem addE_noops (max : Nat) (e : Exec K) (x : Item K) : (addE max e x).noops = e.noops ++ if x.noop then [x] else [] := by
  unfold addE Exec.add; split <;> split <;> (try split) <;> simp_all

theorem addE_executing (max : Nat) (e : Exec K) (x : Item K) :
    (addE max e x).executing = (e.executing || decide (e.items.length + e.noops.length + 1 = max)) := by
  unfold addE
  rw [add_len]
  split
  · rename_i h; simp [h]
  · rename_i h
    split <;> simp [add_executing, h]

theorem addE_ok {max : Nat} {e : Exec K} (x : Item K) (h : EOk max e) (hr : e.executing = false) : EOk max (addE max e x) := by
  have hg := h.idle hr
  have hroom := h.room hr
  have hI := addE_items max e x
  have hN := addE_noops max e x
  have hE := addE_executing max e x
  rw [hr, Bool.false_or] at hE
  have hlen : (addE max e x).items.length + (addE max e x).noops.length = e.items.length + e.noops.length + 1 := by
    rw [hI, hN]; split <;> simp <;> omega
  constructor
  · intro hc
    rw [hE, decide_eq_false_iff_not] at hc
    unfold addE
    rw [add_len, if_neg hc]
    split <;> simp [add_gos, hg]
  · intro hc
    rw [hE, decide_eq_true_eq] at hc
    refine ⟨.queued, ?_, trivial⟩
    unfold addE
    rw [add_len, if_pos hc]
    simp [add_gos, hg]
  · intro hc
    rw [hE, decide_eq_false_iff_not] at hc
    omega
  · omega
  · intro hc _
    rw [hE, decide_eq_false_iff_not] at hc
    unfold addE
    rw [add_len, if_neg hc]
    split
    · simp
    · assumption
  · intro hc
    rw [hE, decide_eq_true_eq] at hc
    unfold addE
    rw [add_len, if_pos hc]
  · intro hc
    unfold addE at hc ⊢
    split at hc
    · simp at hc
    · rename_i hlen'
      rw [if_neg hlen']
      split at hc
      · simp at hc
      · rename_i ht
        rw [if_neg ht, add_late]
        rw [add_timer] at hc
        exact h.fired hc
  · intro y hy
    rw [hI] at hy
    rcases List.mem_append.1 hy with hy | hy
    · exact h.kindI y hy
    · split at hy
      · simp at hy
      · rename_i hx
        rw [List.mem_singleton] at hy
        rw [hy]; simpa using hx
  · intro y hy
    rw [hN] at hy
    rcases List.mem_append.1 hy with hy | hy
    · exact h.kindN y hy
    · split at hy
      · rename_i hx
        rw [List.mem_singleton] at hy
        rw [hy]; exact hx
      · simp at hy

theorem addTo_eq {s : State K} {x : Item K} {i : Nat} (hr : (s.execs i).executing = false) :
    addTo s x i = { s with
      assign := upd s.assign x.key (some i)
      execs := upd s.execs i (addE s.maxSize (s.execs i) x)
      count := s.count + if (s.execs i).items.length + (s.execs i).noops.length + 1 = s.maxSize then 1 else 0 } := by
  have hlen := add_len (s.execs i) x
  have hupd : ∀ (a b : Exec K), upd (upd s.execs i a) i b = upd s.execs i b := by
    intro a b; funext j; simp only [upd]; split <;> rfl
  unfold addTo arm
  have hp : (place s x i).execs i = (s.execs i).add x := by simp [place]
  have hm : (place s x i).maxSize = s.maxSize := rfl
  rw [hp, hm, hlen]
  unfold addE
  rw [hlen]
  split
  · rename_i h
    unfold condExec
    rw [hp, add_executing, hr]
    simp [place, hupd]
  · rename_i h
    simp only [State.setE]
    split
    · simp [place, hupd]
    · simp [place]

/-! ### Structure of the whole batcher -/

/-- Structural invariant. -/
structure Str (s : State K) : Prop where
  pos : 1 ≤ s.maxSize
  out : ∀ i, s.n ≤ i → s.execs i = {}
  asg : ∀ k i, s.assign k = some i → i < s.n
  cnt : s.count = (busy s.execs s.n : Int)
  eok : ∀ i, EOk s.maxSize (s.execs i)
  locI : ∀ i, ∀ x ∈ (s.execs i).items, s.assign x.key = some i
  locN : ∀ i, ∀ x ∈ (s.execs i).noops, s.assign x.key = some i

theorem execFor_some {s : State K} (S : Str s) {x : Item K} {i : Nat} (h : execFor s x = some i) :
    (s.execs i).executing = false ∧ i < s.n ∧ (s.assign x.key = some i ∨ s.assign x.key = none) := by
  unfold execFor at h
  split at h
  · rename_i j hj
    split at h
    · simp at h
    · rename_i he
      simp only [Option.some.injEq] at h
      subst h
      exact ⟨by simpa using he, S.asg _ _ hj, .inl hj⟩
  · rename_i hn
    have h1 := List.find?_some h
    have h2 := List.mem_of_find?_eq_some h
    exact ⟨by simpa using h1, by simpa using h2, .inr hn⟩

theorem execFor_none {s : State K} {x : Item K} (h : execFor s x = none) :
    (∃ i, s.assign x.key = some i ∧ (s.execs i).executing = true) ∨ ∀ i, i < s.n → (s.execs i).executing = true := by
  unfold execFor at h
  split at h
  · rename_i j hj
    split at h
    · rename_i he; exact .inl ⟨j, hj, he⟩
    · simp at h
  · right
    intro i hi
    have := List.find?_eq_none.1 h i (by simpa using hi)
    simpa using this

theorem str_upd {s s' : State K} (S : Str s) {i : Nat} {e : Exec K} (hi : i < s.n) (hn : s'.n = s.n) (hm : s'.maxSize = s.maxSize)
    (hx : s'.execs = upd s.execs i e) (ha : s'.assign = s.assign) (hc : s'.count = (busy s'.execs s'.n : Int))
    (he : EOk s.maxSize e) (hI : ∀ x ∈ e.items, x ∈ (s.execs i).items) (hN : ∀ x ∈ e.noops, x ∈ (s.execs i).noops) : Str s' := by
  constructor
  · rw [hm]; exact S.pos
  · intro j hj
    rw [hn] at hj
    rw [hx, upd_ne _ _ (by omega)]
    exact S.out j hj
  · intro k j hk; rw [ha] at hk; rw [hn]; exact S.asg k j hk
  · exact hc
  · intro j
    rw [hx, hm]
    by_cases hj : j = i
    · subst hj; rw [upd_self]; exact he
    · rw [upd_ne _ _ hj]; exact S.eok j
  · intro j x hxx
    rw [hx] at hxx
    rw [ha]
    by_cases hj : j = i
    · subst hj; rw [upd_self] at hxx; exact S.locI j x (hI x hxx)
    · rw [upd_ne _ _ hj] at hxx; exact S.locI j x hxx
  · intro j x hxx
    rw [hx] at hxx
    rw [ha]
    by_cases hj : j = i
    · subst hj; rw [upd_self] at hxx; exact S.locN j x (hN x hxx)
    · rw [upd_ne _ _ hj] at hxx; exact S.locN j x hxx

theorem str_addTo {s : State K} (S : Str s) {x : Item K} {i : Nat} (h : execFor s x = some i) : Str (addTo s x i) := by
  obtain ⟨hr, hi, ha⟩ := execFor_some S h
  rw [addTo_eq hr]
  have hloc : ∀ (j : Nat) (y : Item K), s.assign y.key = some j → upd s.assign x.key (some i) y.key = some j := by
    intro j y hy
    by_cases hk : y.key = x.key
    · rw [hk] at hy ⊢
      rw [upd_self]
      rcases ha with ha | ha <;> rw [ha] at hy
      · exact hy
      · simp at hy
    · rw [upd_ne _ _ hk]; exact hy
  constructor
  · exact S.pos
  · intro j hj
    have hj' : s.n ≤ j := hj
    change upd s.execs i _ j = _
    rw [upd_ne _ _ (by omega)]
    exact S.out j hj
  · intro k j hk
    have hk' : upd s.assign x.key (some i) k = some j := hk
    change j < s.n
    by_cases e : k = x.key
    · subst e; rw [upd_self] at hk'; simp only [Option.some.injEq] at hk'; omega
    · rw [upd_ne _ _ e] at hk'; exact S.asg k j hk'
  · change s.count + _ = (busy (upd s.execs i _) s.n : Int)
    have hE := addE_executing s.maxSize (s.execs i) x
    rw [hr, Bool.false_or] at hE
    split
    · rename_i hf
      rw [busy_upd_on hi hr (by rw [hE]; simpa using hf), S.cnt]
      rfl
    · rename_i hf
      rw [busy_upd_same _ (by rw [hE, hr]; simpa using hf), S.cnt]
      rfl
  · intro j
    change EOk s.maxSize (upd s.execs i _ j)
    by_cases hj : j = i
    · subst hj; rw [upd_self]; exact addE_ok x (S.eok j) hr
    · rw [upd_ne _ _ hj]; exact S.eok j
  · intro j y hy
    change upd s.assign x.key (some i) y.key = some j
    have hy' : y ∈ (upd s.execs i (addE s.maxSize (s.execs i) x) j).items := hy
    by_cases hj : j = i
    · subst hj
      rw [upd_self, addE_items] at hy'
      rcases List.mem_append.1 hy' with hy' | hy'
      · exact hloc j y (S.locI j y hy')
      · split at hy'
        · simp at hy'
        · rw [List.mem_singleton] at hy'; subst hy'; rw [upd_self]
    · rw [upd_ne _ _ hj] at hy'; exact hloc j y (S.locI j y hy')
  · intro j y hy
    change upd s.assign x.key (some i) y.key = some j
    have hy' : y ∈ (upd s.execs i (addE s.maxSize (s.execs i) x) j).noops := hy
    by_cases hj : j = i
    · subst hj
      rw [upd_self, addE_noops] at hy'
      rcases List.mem_append.1 hy' with hy' | hy'
      · exact hloc j y (S.locN j y hy')
      · split at hy'
        · rw [List.mem_singleton] at hy'; subst hy'; rw [upd_self]
        · simp at hy'
    · rw [upd_ne _ _ hj] at hy'; exact hloc j y (S.locN j y hy')

/-! ### Lines: order of the items of one key -/

/-- Items of key `k` which are placeholders or not. -/
def cls (k : K) (c : Bool) (x : Item K) : Bool := decide (x.key = k ∧ x.noop = c)

/-- Items not yet handed to the user's executor. -/
def Exec.unstarted (e : Exec K) : List (Item K) :=
  match e.gos with
  | [] => e.items
  | .queued :: _ => e.items
  | _ => []

/-- Items not yet completed. -/
def Exec.unfinished (e : Exec K) : List (Item K) :=
  match e.gos with
  | .completing r :: _ => r
  | .nooping _ :: _ => []
  | _ => e.items

/-- Placeholders not yet completed. -/
def Exec.unnooped (e : Exec K) : List (Item K) :=
  match e.gos with
  | .nooping r :: _ => r
  | _ => e.noops

/-- The items which the executor of key `k` still holds. -/
def here (s : State K) (k : K) (c : Bool) (f : Exec K → List (Item K)) : List (Item K) :=
  match s.assign k with
  | some i => (f (s.execs i)).filter (cls k c)
  | none => []

/-- The items of each key are, in the order in which they were added: those past stage `f` (history `H`), those in the executor of the key, those in `P`. -/
def Line (s : State K) (P : List (Item K)) (c : Bool) (f : Exec K → List (Item K)) (H : List (Item K)) : Prop :=
  ∀ k, s.added.filter (cls k c) = H.filter (cls k c) ++ here s k c f ++ P.filter (cls k c)

theorem line_congr {s s' : State K} {P H : List (Item K)} {c : Bool} {f : Exec K → List (Item K)} (h : Line s P c f H)
    (ha : s'.assign = s.assign) (hadd : s'.added = s.added) (hf : ∀ i, f (s'.execs i) = f (s.execs i)) : Line s' P c f H := by
  intro k
  have := h k
  unfold here at this ⊢
  rw [ha, hadd]
  split <;> rename_i hk <;> simp only [hk] at this <;> simpa [hf] using this

/-- A stage function that extends by the added item on an idle executor. -/
def Extends (max : Nat) (c : Bool) (f : Exec K → List (Item K)) : Prop :=
  ∀ e x, e.executing = false → e.gos = [] → f (addE max e x) = f e ++ if x.noop = c then [x] else []

theorem addE_gos {max : Nat} {e : Exec K} (x : Item K) (hg : e.gos = []) : (addE max e x).gos = [] ∨ (addE max e x).gos = [.queued] := by
  unfold addE
  split
  · right; simp [add_gos, hg]
  · left; split <;> simp [add_gos, hg]

theorem ext_unstarted (max : Nat) : Extends (K := K) max false Exec.unstarted := by
  intro e x _ hg
  have hI := addE_items max e x
  unfold Exec.unstarted
  rw [hg]
  rcases addE_gos (max := max) x hg with h | h <;> rw [h] <;> simp only <;> rw [hI] <;> cases x.noop <;> simp

theorem ext_unfinished (max : Nat) : Extends (K := K) max false Exec.unfinished := by
  intro e x _ hg
  have hI := addE_items max e x
  unfold Exec.unfinished
  rw [hg]
  rcases addE_gos (max := max) x hg with h | h <;> rw [h] <;> simp only <;> rw [hI] <;> cases x.noop <;> simp

theorem ext_unnooped (max : Nat) : Extends (K := K) max true Exec.unnooped := by
  intro e x _ hg
  have hN := addE_noops max e x
  unfold Exec.unnooped
  rw [hg]
  rcases addE_gos (max := max) x hg with h | h <;> rw [h] <;> simp only <;> rw [hN] <;> cases x.noop <;> simp

/-- The items a stage holds lie in the executor they are assigned to. -/
def Local (s : State K) (f : Exec K → List (Item K)) : Prop := ∀ i, ∀ x ∈ f (s.execs i), s.assign x.key = some i

theorem line_addTo {s : State K} (S : Str s) {x : Item K} {i : Nat} (h : execFor s x = some i) {A B H : List (Item K)} {c : Bool}
    {f : Exec K → List (Item K)} (hA : ∀ y ∈ A, y.key ≠ x.key) (hf : Extends s.maxSize c f) (hl : Local s f)
    (L : Line s (A ++ x :: B) c f H) : Line (addTo s x i) (A ++ B) c f H := by
  obtain ⟨hr, hi, ha⟩ := execFor_some S h
  rw [addTo_eq hr]
  have hAk : A.filter (cls x.key c) = [] := by
    rw [List.filter_eq_nil_iff]
    intro y hy
    simp [cls, hA y hy]
  intro k
  have hL := L k
  change s.added.filter (cls k c) = _
  rw [hL]
  by_cases hk : k = x.key
  · subst hk
    have h1 : here s x.key c f = (f (s.execs i)).filter (cls x.key c) := by
      unfold here
      rcases ha with ha | ha
      · rw [ha]
      · rw [ha]
        symm
        simp only
        rw [List.filter_eq_nil_iff]
        intro y hy hc
        have := hl i y hy
        simp only [cls, decide_eq_true_eq] at hc
        rw [hc.1, ha] at this
        simp at this
    rw [h1]
    unfold here
    simp only [upd_self, List.filter_append, hAk, List.nil_append]
    rw [hf _ _ hr ((S.eok i).idle hr), List.filter_append]
    by_cases hx : x.noop = c
    · simp [cls, hx]
    · simp [cls, hx]
  · have h2 : cls k c x = false := by simp [cls, Ne.symm hk]
    unfold here
    simp only [List.filter_append, List.filter_cons, h2]
    rw [upd_ne _ _ hk]
    split
    · rename_i j hj
      by_cases hji : j = i
      · subst hji
        rw [upd_self, hf _ _ hr ((S.eok j).idle hr), List.filter_append]
        by_cases hx : x.noop = c
        · simp [hx, h2]
        · simp [hx]
      · rw [upd_ne _ _ hji]; simp
    · simp

theorem suffix_mem {l m : List (Item K)} (h : l <:+ m) {x : Item K} (hx : x ∈ l) : x ∈ m := h.subset hx

theorem loc_unfinished {s : State K} (S : Str s) : Local s Exec.unfinished := by
  intro i x hx
  apply S.locI i x
  unfold Exec.unfinished at hx
  rcases he : (s.execs i).executing with _ | _
  · have := (S.eok i).idle he
    rw [this] at hx; exact hx
  · obtain ⟨p, hp, hok⟩ := (S.eok i).go he
    rw [hp] at hx
    cases p <;> simp only at hx
    · exact hx
    · exact hx
    · exact suffix_mem hok hx
    · simp at hx

theorem loc_unstarted {s : State K} (S : Str s) : Local s Exec.unstarted := by
  intro i x hx
  apply S.locI i x
  unfold Exec.unstarted at hx
  split at hx
  · exact hx
  · exact hx
  · simp at hx

theorem loc_unnooped {s : State K} (S : Str s) : Local s Exec.unnooped := by
  intro i x hx
  apply S.locN i x
  unfold Exec.unnooped at hx
  rcases he : (s.execs i).executing with _ | _
  · have := (S.eok i).idle he
    rw [this] at hx; exact hx
  · obtain ⟨p, hp, hok⟩ := (S.eok i).go he
    rw [hp] at hx
    cases p <;> simp only at hx
    · exact hx
    · exact hx
    · exact hx
    · exact suffix_mem hok hx

/-- The part of the items of each key that waits outside the executors is the newest part. -/
def Mix (s : State K) (P : List (Item K)) : Prop :=
  ∀ k, ∃ g, s.added.filter (fun x => decide (x.key = k)) = g ++ P.filter (fun x => decide (x.key = k))

/-- Full invariant, where `P` takes the place of the pending list. -/
structure Inv (s : State K) (P : List (Item K)) : Prop where
  str : Str s
  started : Line s P false Exec.unstarted s.calls.flatten
  finished : Line s P false Exec.unfinished s.done
  nooped : Line s P true Exec.unnooped s.done
  mix : Mix s P

/-- A pending item waits for its own executor, or all executors are executing. -/
def Waits (s : State K) (P : List (Item K)) : Prop :=
  ∀ x ∈ P, (∃ i, s.assign x.key = some i ∧ (s.execs i).executing = true) ∨ ∀ i, i < s.n → (s.execs i).executing = true

theorem inv_addTo {s : State K} {x : Item K} {i : Nat} {A B : List (Item K)} (I : Inv s (A ++ x :: B)) (h : execFor s x = some i)
    (hA : ∀ y ∈ A, y.key ≠ x.key) : Inv (addTo s x i) (A ++ B) := by
  obtain ⟨hr, hi, ha⟩ := execFor_some I.str h
  have l1 := line_addTo I.str h hA (ext_unstarted _) (loc_unstarted I.str) I.started
  have l2 := line_addTo I.str h hA (ext_unfinished _) (loc_unfinished I.str) I.finished
  have l3 := line_addTo I.str h hA (ext_unnooped _) (loc_unnooped I.str) I.nooped
  refine ⟨str_addTo I.str h, ?_, ?_, ?_, ?_⟩
  · rw [addTo_eq hr] at l1 ⊢; exact l1
  · rw [addTo_eq hr] at l2 ⊢; exact l2
  · rw [addTo_eq hr] at l3 ⊢; exact l3
  · rw [addTo_eq hr]
    intro k
    obtain ⟨g, hg⟩ := I.mix k
    by_cases hk : x.key = k
    · refine ⟨g ++ [x], ?_⟩
      change s.added.filter _ = _
      rw [hg]
      have hAk : A.filter (fun x => decide (x.key = k)) = [] := by
        rw [List.filter_eq_nil_iff]
        intro y hy
        have := hA y hy
        rw [hk] at this
        simpa using this
      simp [List.filter_append, hAk, hk]
    · refine ⟨g, ?_⟩
      change s.added.filter _ = _
      rw [hg]
      simp [List.filter_append, hk]

/-! ### The pending loop -/

theorem addTo_executing {s : State K} {x : Item K} {i : Nat} (hr : (s.execs i).executing = false) {j : Nat}
    (h : (s.execs j).executing = true) : ((addTo s x i).execs j).executing = true := by
  rw [addTo_eq hr]
  have : j ≠ i := by rintro rfl; rw [hr] at h; simp at h
  change (upd s.execs i _ j).executing = true
  rw [upd_ne _ _ this]; exact h

theorem addTo_assign {s : State K} (S : Str s) {x : Item K} {i : Nat} (h : execFor s x = some i) {k : K} {j : Nat}
    (hk : s.assign k = some j) : (addTo s x i).assign k = some j := by
  obtain ⟨hr, hi, ha⟩ := execFor_some S h
  rw [addTo_eq hr]
  change upd s.assign x.key (some i) k = some j
  by_cases e : k = x.key
  · subst e
    rw [upd_self]
    rcases ha with ha | ha <;> rw [ha] at hk
    · exact hk
    · simp at hk
  · rw [upd_ne _ _ e]; exact hk

theorem addTo_n {s : State K} {x : Item K} {i : Nat} (hr : (s.execs i).executing = false) : (addTo s x i).n = s.n := by rw [addTo_eq hr]

/-- Strong form of waiting: the key is assigned to an executing executor. -/
def Held (s : State K) (P : List (Item K)) : Prop := ∀ x ∈ P, ∃ i, s.assign x.key = some i ∧ (s.execs i).executing = true

theorem inv_pending {s : State K} {P Q : List (Item K)} (I : Inv s P) : Inv { s with pending := Q } P :=
  { str := ⟨I.str.pos, I.str.out, I.str.asg, I.str.cnt, I.str.eok, I.str.locI, I.str.locN⟩
    started := line_congr I.started rfl rfl fun _ => rfl
    finished := line_congr I.finished rfl rfl fun _ => rfl
    nooped := line_congr I.nooped rfl rfl fun _ => rfl
    mix := I.mix }

theorem flushLoop_inv {s : State K} {kept rest : List (Item K)} (I : Inv s (kept ++ rest)) (hk : Held s kept) (hc : s.count ≠ (s.n : Int)) :
    Inv (flushLoop s kept rest) (flushLoop s kept rest).pending ∧ Waits (flushLoop s kept rest) (flushLoop s kept rest).pending := by
  induction rest generalizing s kept with
  | nil =>
    simp only [flushLoop]
    rw [List.append_nil] at I
    exact ⟨inv_pending I, fun x hx => .inl (hk x hx)⟩
  | cons x rest ih =>
    have hnf : busy s.execs s.n ≠ s.n := by
      intro h; apply hc; rw [I.str.cnt, h]
    simp only [flushLoop]
    cases he : execFor s x with
    | none =>
      simp only
      apply ih
      · rw [List.append_assoc]; exact I
      · intro y hy
        rcases List.mem_append.1 hy with hy | hy
        · exact hk y hy
        · rw [List.mem_singleton] at hy
          subst hy
          rcases execFor_none he with h | h
          · exact h
          · obtain ⟨i, hi, hi'⟩ := busy_lt hnf
            rw [h i hi] at hi'; simp at hi'
      · exact hc
    | some i =>
      simp only
      obtain ⟨hr, hi, ha⟩ := execFor_some I.str he
      have hA : ∀ y ∈ kept, y.key ≠ x.key := by
        intro y hy hyx
        obtain ⟨j, hj, hj'⟩ := hk y hy
        rw [hyx] at hj
        rcases ha with ha | ha <;> rw [ha] at hj
        · simp only [Option.some.injEq] at hj
          subst hj; rw [hr] at hj'; simp at hj'
        · simp at hj
      have I' := inv_addTo I he hA
      have hk' : Held (addTo s x i) kept := by
        intro y hy
        obtain ⟨j, hj, hj'⟩ := hk y hy
        exact ⟨j, addTo_assign I.str he hj, addTo_executing hr hj'⟩
      split
      · rename_i hfull
        refine ⟨inv_pending I', ?_⟩
        intro y hy
        right
        apply busy_full
        have hcnt := I'.str.cnt
        rw [hfull] at hcnt
        have hn := addTo_n (x := x) hr
        change busy (addTo s x i).execs (addTo s x i).n = (addTo s x i).n
        rw [hn] at hcnt ⊢
        omega
      · rename_i hfull
        apply ih I' hk'
        rw [addTo_n hr]; exact hfull

theorem flushPending_inv {s : State K} (I : Inv s s.pending) (h : s.count = (s.n : Int) → Waits s s.pending) :
    Inv (flushPending s) (flushPending s).pending ∧ Waits (flushPending s) (flushPending s).pending := by
  unfold flushPending
  split
  · rename_i hc; exact ⟨I, h hc⟩
  · rename_i hc
    exact flushLoop_inv (kept := []) I (by intro x hx; simp at hx) hc

/-! ### Steps -/

theorem str_congr {s s' : State K} (S : Str s) (h1 : s'.n = s.n) (h2 : s'.maxSize = s.maxSize) (h3 : s'.execs = s.execs)
    (h4 : s'.assign = s.assign) (h5 : s'.count = s.count) : Str s' := by
  constructor
  · rw [h2]; exact S.pos
  · rw [h1, h3]; exact S.out
  · rw [h1, h4]; exact S.asg
  · rw [h1, h3, h5]; exact S.cnt
  · rw [h2, h3]; exact S.eok
  · rw [h3, h4]; exact S.locI
  · rw [h3, h4]; exact S.locN

theorem line_move {s s' : State K} {P H M : List (Item K)} {c : Bool} {f : Exec K → List (Item K)} {i : Nat} {e : Exec K}
    (h : Line s P c f H) (hx : s'.execs = upd s.execs i e) (ha : s'.assign = s.assign) (hadd : s'.added = s.added)
    (hf : ∀ k, (f (s.execs i)).filter (cls k c) = M.filter (cls k c) ++ (f e).filter (cls k c))
    (hM : ∀ x ∈ M, x.noop = c → s.assign x.key = some i) : Line s' P c f (H ++ M) := by
  intro k
  rw [hadd, h k]
  unfold here
  rw [ha, hx, List.filter_append]
  cases hk : s.assign k with
  | none =>
    have : M.filter (cls k c) = [] := by
      rw [List.filter_eq_nil_iff]
      intro y hy hc
      simp only [cls, decide_eq_true_eq] at hc
      have := hM y hy hc.2
      rw [hc.1, hk] at this
      simp at this
    simp [this]
  | some j =>
    simp only
    by_cases hj : j = i
    · subst hj
      rw [upd_self, hf k]
      simp
    · rw [upd_ne _ _ hj]
      have : M.filter (cls k c) = [] := by
        rw [List.filter_eq_nil_iff]
        intro y hy hc
        simp only [cls, decide_eq_true_eq] at hc
        have := hM y hy hc.2
        rw [hc.1, hk] at this
        simp at this
        exact hj this
      simp [this]

theorem line_same {s s' : State K} {P H : List (Item K)} {c : Bool} {f : Exec K → List (Item K)} {i : Nat} {e : Exec K}
    (h : Line s P c f H) (hx : s'.execs = upd s.execs i e) (ha : s'.assign = s.assign) (hadd : s'.added = s.added)
    (hf : ∀ k, (f (s.execs i)).filter (cls k c) = (f e).filter (cls k c)) : Line s' P c f H := by
  have := line_move (M := []) h hx ha hadd (fun k => by simpa using hf k) (by simp)
  simpa using this

theorem inv_init (max n : Nat) (h : 1 ≤ max) : Inv (init K max n) (init K max n).pending ∧ Waits (init K max n) (init K max n).pending := by
  refine ⟨⟨⟨h, fun _ _ => rfl, by simp [init], ?_, ?_, by simp [init], by simp [init]⟩, ?_, ?_, ?_, ?_⟩, by simp [init, Waits]⟩
  · simp only [init, busy]
    simp
  · intro i
    constructor <;> simp [init]; omega
  · intro k; simp [init, here]
  · intro k; simp [init, here]
  · intro k; simp [init, here]
  · intro k; exact ⟨[], by simp [init]⟩

theorem inv_append {s s1 : State K} {P : List (Item K)} {x : Item K} (I : Inv s P) (h1 : s1.n = s.n) (h2 : s1.maxSize = s.maxSize)
    (h3 : s1.execs = s.execs) (h4 : s1.assign = s.assign) (h5 : s1.count = s.count) (h6 : s1.added = s.added ++ [x])
    (h7 : s1.calls = s.calls) (h8 : s1.done = s.done) : Inv s1 (P ++ [x]) := by
  have hL : ∀ c f H, Line s P c f H → Line s1 (P ++ [x]) c f H := by
    intro c f H h k
    have := h k
    unfold here at this ⊢
    rw [h6, h3, h4, List.filter_append, this, List.filter_append, List.append_assoc, List.append_assoc]
  refine ⟨str_congr I.str h1 h2 h3 h4 h5, ?_, ?_, ?_, ?_⟩
  · rw [h7]; exact hL _ _ _ I.started
  · rw [h8]; exact hL _ _ _ I.finished
  · rw [h8]; exact hL _ _ _ I.nooped
  · intro k
    obtain ⟨g, hg⟩ := I.mix k
    exact ⟨g, by rw [h6, List.filter_append, hg, List.filter_append, List.append_assoc]⟩

theorem addOne_inv {s : State K} (x : Item K) (I : Inv s s.pending) (W : Waits s s.pending) :
    Inv (addOne s x) (addOne s x).pending ∧ Waits (addOne s x) (addOne s x).pending := by
  have I1 : Inv { s with added := s.added ++ [x] } (s.pending ++ [x]) := inv_append I rfl rfl rfl rfl rfl rfl rfl rfl
  unfold addOne
  simp only
  cases he : execFor { s with added := s.added ++ [x] } x with
  | none =>
    simp only
    refine ⟨inv_pending I1, ?_⟩
    intro y hy
    have hy' : y ∈ s.pending ++ [x] := hy
    rcases List.mem_append.1 hy' with h | h
    · exact W y h
    · rw [List.mem_singleton] at h; subst h; exact execFor_none he
  | some i =>
    simp only
    obtain ⟨hr, hi, ha⟩ := execFor_some I1.str he
    have hr' : (s.execs i).executing = false := hr
    have hA : ∀ y ∈ s.pending, y.key ≠ x.key := by
      intro y hy hyx
      rcases W y hy with ⟨j, hj, hj'⟩ | hall
      · rw [hyx] at hj
        rcases ha with ha | ha
        · have ha' : s.assign x.key = some i := ha
          rw [ha'] at hj
          simp only [Option.some.injEq] at hj
          subst hj; rw [hr'] at hj'; simp at hj'
        · have ha' : s.assign x.key = none := ha
          rw [ha'] at hj; simp at hj
      · have := hall i hi; rw [hr'] at this; simp at this
    have I2 := inv_addTo (A := s.pending) (B := []) I1 he hA
    rw [List.append_nil] at I2
    have hp : (addTo { s with added := s.added ++ [x] } x i).pending = s.pending := by rw [addTo_eq hr]
    rw [hp]
    refine ⟨I2, ?_⟩
    intro y hy
    rcases W y hy with ⟨j, hj, hj'⟩ | hall
    · exact .inl ⟨j, addTo_assign I1.str he hj, addTo_executing hr hj'⟩
    · have := hall i hi; rw [hr'] at this; simp at this

theorem inv_exec {s s' : State K} {P : List (Item K)} {i : Nat} {e : Exec K} (I : Inv s P) (S : Str s') (hx : s'.execs = upd s.execs i e)
    (ha : s'.assign = s.assign) (hadd : s'.added = s.added) (hc : s'.calls = s.calls) (hd : s'.done = s.done)
    (f1 : e.unstarted = (s.execs i).unstarted) (f2 : e.unfinished = (s.execs i).unfinished) (f3 : e.unnooped = (s.execs i).unnooped) :
    Inv s' P := by
  refine ⟨S, ?_, ?_, ?_, ?_⟩
  · rw [hc]; exact line_same I.started hx ha hadd fun k => by rw [f1]
  · rw [hd]; exact line_same I.finished hx ha hadd fun k => by rw [f2]
  · rw [hd]; exact line_same I.nooped hx ha hadd fun k => by rw [f3]
  · intro k; rw [hadd]; exact I.mix k

theorem waits_exec {s s' : State K} {P : List (Item K)} {i : Nat} {e : Exec K} (W : Waits s P) (hn : s'.n = s.n) (hx : s'.execs = upd s.execs i e)
    (ha : s'.assign = s.assign) (he : (s.execs i).executing = true → e.executing = true) : Waits s' P := by
  have hmono : ∀ j, (s.execs j).executing = true → (s'.execs j).executing = true := by
    intro j hj
    rw [hx]
    by_cases h : j = i
    · subst h; rw [upd_self]; exact he hj
    · rw [upd_ne _ _ h]; exact hj
  intro x hxP
  rcases W x hxP with ⟨j, hj, hj'⟩ | hall
  · exact .inl ⟨j, by rw [ha]; exact hj, hmono j hj'⟩
  · right; intro j hj; rw [hn] at hj; exact hmono j (hall j hj)

/-- An executor that is not in its initial state exists. -/
theorem lt_of_ne {s : State K} (S : Str s) {i : Nat} (h : s.execs i ≠ {}) : i < s.n := by
  by_contra hc
  exact h (S.out i (by omega))

theorem condExec_inv {s : State K} {i m : Nat} (I : Inv s s.pending) (W : Waits s s.pending) (hl : (s.execs i).late = m + 1) :
    let s' := condExec (s.setE i { s.execs i with late := m }) i
    Inv s' s'.pending ∧ Waits s' s'.pending := by
  intro s'
  have hi : i < s.n := lt_of_ne I.str (by intro h; rw [h] at hl; simp at hl)
  have E := I.str.eok i
  have hself : (s.setE i { s.execs i with late := m }).execs i = { s.execs i with late := m } := by simp [State.setE]
  have hupd : ∀ (a b : Exec K), upd (upd s.execs i a) i b = upd s.execs i b := by
    intro a b; funext j; simp only [upd]; split <;> rfl
  have hs' : s' = if (s.execs i).executing then s.setE i { s.execs i with late := m } else
      { s with execs := upd s.execs i { s.execs i with late := m, executing := true, timer := .nil, gos := (s.execs i).gos ++ [.queued] }, count := s.count + 1 } := by
    simp only [s', condExec, hself]
    split
    · rfl
    · simp [State.setE, hupd]
  split at hs'
  · rename_i he
    have he' : (s.execs i).executing = true := he
    have hx : s'.execs = upd s.execs i { s.execs i with late := m } := by rw [hs']; rfl
    have hp : s'.pending = s.pending := by rw [hs']; rfl
    rw [hp]
    have S' : Str s' := by
      apply str_upd I.str hi (by rw [hs']; rfl) (by rw [hs']; rfl) hx (by rw [hs']; rfl) _ _ (fun x h => h) (fun x h => h)
      · have hn : s'.n = s.n := by rw [hs']; rfl
        have hc : s'.count = s.count := by rw [hs']; rfl
        rw [hx, hn, hc, busy_upd_same]
        · exact I.str.cnt
        · rfl
      · exact ⟨E.idle, E.go, E.room, E.size, E.timed, E.untimed, by intro ht; have := E.untimed he'; simp [this] at ht, E.kindI, E.kindN⟩
    refine ⟨inv_exec I S' hx (by rw [hs']; rfl) (by rw [hs']; rfl) (by rw [hs']; rfl) (by rw [hs']; rfl) rfl rfl rfl, ?_⟩
    exact waits_exec W (by rw [hs']; rfl) hx (by rw [hs']; rfl) (fun h => h)
  · rename_i he
    have he' : (s.execs i).executing = false := by simpa using he
    have hg := E.idle he'
    have hx : s'.execs = upd s.execs i { s.execs i with late := m, executing := true, timer := .nil, gos := (s.execs i).gos ++ [.queued] } := by rw [hs']
    have hp : s'.pending = s.pending := by rw [hs']
    rw [hp]
    have S' : Str s' := by
      apply str_upd I.str hi (by rw [hs']) (by rw [hs']) hx (by rw [hs']) _ _ (fun x h => h) (fun x h => h)
      · have hn : s'.n = s.n := by rw [hs']
        have hc : s'.count = s.count + 1 := by rw [hs']
        rw [hx, hn, hc, busy_upd_on hi he', I.str.cnt]
        · rfl
        · rfl
      · exact ⟨by simp, fun _ => ⟨.queued, by simp [hg], trivial⟩, by simp, E.size, by simp, by simp, by simp, E.kindI, E.kindN⟩
    refine ⟨inv_exec I S' hx (by rw [hs']) (by rw [hs']) (by rw [hs']) (by rw [hs']) ?_ ?_ ?_, ?_⟩
    · simp [Exec.unstarted, hg]
    · simp [Exec.unfinished, hg]
    · simp [Exec.unnooped, hg]
    · exact waits_exec W (by rw [hs']) hx (by rw [hs']) (fun _ => rfl)

/-- The state after a goroutine moved within its loops: only the phase and the histories change. -/
theorem go_inv {s s' : State K} {i : Nat} {p p' : Phase K} {C D : List (Item K)} (I : Inv s s.pending) (W : Waits s s.pending)
    (he : (s.execs i).executing = true) (hg : (s.execs i).gos = [p])
    (h1 : s'.n = s.n) (h2 : s'.maxSize = s.maxSize) (h3 : s'.execs = upd s.execs i { s.execs i with gos := [p'] }) (h4 : s'.assign = s.assign)
    (h5 : s'.count = s.count) (h6 : s'.added = s.added) (h7 : s'.calls.flatten = s.calls.flatten ++ C) (h8 : s'.done = s.done ++ D)
    (h9 : s'.pending = s.pending) (hok : p'.ok (s.execs i))
    (hC : ∀ x ∈ C, x ∈ (s.execs i).items) (hD : ∀ x ∈ D, (x.noop = false → x ∈ (s.execs i).items) ∧ (x.noop = true → x ∈ (s.execs i).noops))
    (f1 : (s.execs i).unstarted = C ++ ({ s.execs i with gos := [p'] } : Exec K).unstarted)
    (f2 : ∀ k, (s.execs i).unfinished.filter (cls k false) = D.filter (cls k false) ++ ({ s.execs i with gos := [p'] } : Exec K).unfinished.filter (cls k false))
    (f3 : ∀ k, (s.execs i).unnooped.filter (cls k true) = D.filter (cls k true) ++ ({ s.execs i with gos := [p'] } : Exec K).unnooped.filter (cls k true)) :
    Inv s' s'.pending ∧ Waits s' s'.pending := by
  have E := I.str.eok i
  have hi : i < s.n := lt_of_ne I.str (by intro h; rw [h] at hg; simp at hg)
  rw [h9]
  refine ⟨⟨?_, ?_, ?_, ?_, ?_⟩, waits_exec W h1 h3 h4 (fun _ => he)⟩
  · apply str_upd I.str hi h1 h2 h3 h4 _ _ (fun x h => h) (fun x h => h)
    · rw [h3, h1, h5, busy_upd_same]
      · exact I.str.cnt
      · rfl
    · refine ⟨by simp [he], fun _ => ⟨p', rfl, ?_⟩, E.room, E.size, E.timed, E.untimed, E.fired, E.kindI, E.kindN⟩
      cases p' <;> exact hok
  · rw [h7]
    exact line_move I.started h3 h4 h6 (fun k => by rw [f1, List.filter_append]) (fun x hx _ => I.str.locI i x (hC x hx))
  · rw [h8]
    exact line_move I.finished h3 h4 h6 f2 (fun x hx hn => I.str.locI i x ((hD x hx).1 hn))
  · rw [h8]
    exact line_move I.nooped h3 h4 h6 f3 (fun x hx hn => I.str.locN i x ((hD x hx).2 hn))
  · intro k; rw [h6]; exact I.mix k

theorem reset_inv {s s' : State K} {i : Nat} (I : Inv s s.pending) (he : (s.execs i).executing = true) (hg : (s.execs i).gos = [.nooping []])
    (h : s' = reset { s with count := s.count - 1, execs := upd s.execs i { s.execs i with gos := [] } } i) :
    Inv s' s'.pending ∧ s'.count ≠ (s'.n : Int) := by
  have E := I.str.eok i
  have hi : i < s.n := lt_of_ne I.str (by intro h; rw [h] at hg; simp at hg)
  have hupd : ∀ (a b : Exec K), upd (upd s.execs i a) i b = upd s.execs i b := by
    intro a b; funext j; simp only [upd]; split <;> rfl
  have hx : s'.execs = upd s.execs i { s.execs i with items := [], noops := [], executing := false, gos := [] } := by
    rw [h]; simp [reset, hupd]
  have ha : s'.assign = fun k => if k ∈ (s.execs i).items.map Item.key then none else s.assign k := by
    rw [h]; simp [reset]
  have hn : s'.n = s.n := by rw [h]; rfl
  have hm : s'.maxSize = s.maxSize := by rw [h]; rfl
  have hp : s'.pending = s.pending := by rw [h]; rfl
  have hadd : s'.added = s.added := by rw [h]; rfl
  have hcl : s'.calls = s.calls := by rw [h]; rfl
  have hdn : s'.done = s.done := by rw [h]; rfl
  have hct : s'.count = s.count - 1 := by rw [h]; rfl
  have hb := busy_upd_off (e := { s.execs i with items := [], noops := [], executing := false, gos := [] }) hi he rfl
  have hcnt : s'.count = (busy s'.execs s'.n : Int) := by
    rw [hct, hn, hx, I.str.cnt]; omega
  have hle := busy_le (upd s.execs i { s.execs i with items := [], noops := [], executing := false, gos := [] }) s.n
  have hne : s'.count ≠ (s'.n : Int) := by
    rw [hct, hn, I.str.cnt]
    have := busy_le s.execs s.n
    omega
  have hother : ∀ j, j ≠ i → ∀ y : Item K, s.assign y.key = some j → s'.assign y.key = some j := by
    intro j hj y hy
    rw [ha]
    simp only
    rw [if_neg]
    · exact hy
    · intro hmem
      obtain ⟨z, hz, hzk⟩ := List.mem_map.1 hmem
      have := I.str.locI i z hz
      rw [hzk, hy] at this
      simp only [Option.some.injEq] at this
      exact hj this
  have hline : ∀ c (f : Exec K → List (Item K)) H, f (s.execs i) = [] → f { s.execs i with items := [], noops := [], executing := false, gos := [] } = [] →
      Line s s.pending c f H → Line s' s.pending c f H := by
    intro c f H h1 h2 L k
    have hL := L k
    unfold here at hL ⊢
    rw [hadd, hL, ha, hx]
    simp only
    by_cases hk : k ∈ (s.execs i).items.map Item.key
    · rw [if_pos hk]
      obtain ⟨z, hz, hzk⟩ := List.mem_map.1 hk
      have := I.str.locI i z hz
      rw [hzk] at this
      rw [this]
      simp [h1]
    · rw [if_neg hk]
      split
      · rename_i j hj
        by_cases hji : j = i
        · subst hji; rw [upd_self, h1, h2]
        · rw [upd_ne _ _ hji]
      · rfl
  refine ⟨⟨?_, ?_, ?_, ?_, ?_⟩, hne⟩
  · constructor
    · rw [hm]; exact I.str.pos
    · intro j hj
      rw [hn] at hj
      rw [hx, upd_ne _ _ (by omega)]
      exact I.str.out j hj
    · intro k j hk
      rw [ha] at hk
      simp only at hk
      rw [hn]
      split at hk
      · simp at hk
      · exact I.str.asg k j hk
    · exact hcnt
    · intro j
      rw [hx, hm]
      by_cases hj : j = i
      · subst hj
        rw [upd_self]
        have hpos := I.str.pos
        exact ⟨by simp, by simp, by intro _; simp; omega, by simp, by simp, by simp, E.fired, by simp, by simp⟩
      · rw [upd_ne _ _ hj]; exact I.str.eok j
    · intro j y hy
      rw [hx] at hy
      by_cases hj : j = i
      · subst hj; rw [upd_self] at hy; simp at hy
      · rw [upd_ne _ _ hj] at hy
        exact hother j hj y (I.str.locI j y hy)
    · intro j y hy
      rw [hx] at hy
      by_cases hj : j = i
      · subst hj; rw [upd_self] at hy; simp at hy
      · rw [upd_ne _ _ hj] at hy
        exact hother j hj y (I.str.locN j y hy)
  · rw [hp, hcl]; exact hline _ _ _ (by simp [Exec.unstarted, hg]) (by simp [Exec.unstarted]) I.started
  · rw [hp, hdn]; exact hline _ _ _ (by simp [Exec.unfinished, hg]) (by simp [Exec.unfinished]) I.finished
  · rw [hp, hdn]; exact hline _ _ _ (by simp [Exec.unnooped, hg]) (by simp [Exec.unnooped]) I.nooped
  · intro k; rw [hp, hadd]; exact I.mix k

theorem suffix_cons {x : Item K} {r l : List (Item K)} (h : x :: r <:+ l) : x ∈ l ∧ r <:+ l :=
  ⟨h.subset (by simp), (List.suffix_cons x r).trans h⟩

/-- The executing goroutine of an executor. -/
theorem the_go {s : State K} (S : Str s) {i j : Nat} {p : Phase K} (h : (s.execs i).gos[j]? = some p) :
    (s.execs i).executing = true ∧ (s.execs i).gos = [p] ∧ j = 0 ∧ p.ok (s.execs i) := by
  cases he : (s.execs i).executing with
  | false => rw [(S.eok i).idle he] at h; simp at h
  | true =>
    obtain ⟨q, hq, hok⟩ := (S.eok i).go he
    rw [hq] at h
    have hj : j = 0 := by
      by_contra hj
      rw [List.getElem?_eq_none (by simp; omega)] at h
      simp at h
    subst hj
    simp only [List.getElem?_cons_zero, Option.some.injEq] at h
    subst h
    exact ⟨rfl, hq, rfl, hok⟩

theorem goStep_inv {s : State K} {i j : Nat} {p : Phase K} (I : Inv s s.pending) (W : Waits s s.pending) (h : (s.execs i).gos[j]? = some p) :
    Inv (goStep s i j p) (goStep s i j p).pending ∧ Waits (goStep s i j p) (goStep s i j p).pending := by
  obtain ⟨he, hg, hj, hok⟩ := the_go I.str h
  subst hj
  have E := I.str.eok i
  have hset : ∀ q, (s.execs i).gos.set 0 q = [q] := by intro q; rw [hg]; rfl
  cases p with
  | queued =>
    simp only [goStep]
    split
    · rename_i hpos
      apply go_inv (p' := .running) (C := (s.execs i).items) (D := []) I W he hg (by rfl) (by rfl) (by simp [setGo, State.setE, hset]) (by rfl) (by rfl) (by rfl)
        (by simp [setGo, State.setE]) (by simp [setGo, State.setE]) (by rfl)
      · simp only [Phase.ok]; intro h; rw [h] at hpos; simp at hpos
      · exact fun x h => h
      · simp
      · simp [Exec.unstarted, hg]
      · intro k; simp [Exec.unfinished, hg]
      · intro k; simp [Exec.unnooped, hg]
    · rename_i hpos
      have h0 : (s.execs i).items = [] := List.eq_nil_of_length_eq_zero (by omega)
      apply go_inv (p' := .nooping (s.execs i).noops) (C := []) (D := []) I W he hg (by rfl) (by rfl) (by simp [setGo, State.setE, hset]) (by rfl) (by rfl) (by rfl)
        (by simp [setGo, State.setE]) (by simp [setGo, State.setE]) (by rfl)
      · simp only [Phase.ok]; exact List.suffix_refl _
      · simp
      · simp
      · simp [Exec.unstarted, hg, h0]
      · intro k; simp [Exec.unfinished, hg, h0]
      · intro k; simp [Exec.unnooped, hg]
  | running =>
    simp only [goStep]
    apply go_inv (p' := .completing (s.execs i).items) (C := []) (D := []) I W he hg (by rfl) (by rfl) (by simp [setGo, State.setE, hset]) (by rfl) (by rfl) (by rfl)
      (by simp [setGo, State.setE]) (by simp [setGo, State.setE]) (by rfl)
    · simp only [Phase.ok]; exact List.suffix_refl _
    · simp
    · simp
    · simp [Exec.unstarted, hg]
    · intro k; simp [Exec.unfinished, hg]
    · intro k; simp [Exec.unnooped, hg]
  | completing r =>
    cases r with
    | nil =>
      simp only [goStep]
      apply go_inv (p' := .nooping (s.execs i).noops) (C := []) (D := []) I W he hg (by rfl) (by rfl) (by simp [setGo, State.setE, hset]) (by rfl) (by rfl) (by rfl)
        (by simp [setGo, State.setE]) (by simp [setGo, State.setE]) (by rfl)
      · simp only [Phase.ok]; exact List.suffix_refl _
      · simp
      · simp
      · simp [Exec.unstarted, hg]
      · intro k; simp [Exec.unfinished, hg]
      · intro k; simp [Exec.unnooped, hg]
    | cons x r =>
      simp only [goStep]
      simp only [Phase.ok] at hok
      have hx := suffix_cons hok
      have hxn := E.kindI x hx.1
      apply go_inv (p' := .completing r) (C := []) (D := [x]) I W he hg (by rfl) (by rfl) (by simp [setGo, State.setE, completeItem, hset]) (by rfl) (by rfl) (by rfl)
        (by simp [setGo, State.setE, completeItem]) (by simp [setGo, State.setE, completeItem]) (by rfl)
      · simp only [Phase.ok]; exact hx.2
      · simp
      · intro y hy
        rw [List.mem_singleton] at hy
        subst hy
        exact ⟨fun _ => hx.1, fun h => by rw [hxn] at h; simp at h⟩
      · simp [Exec.unstarted, hg]
      · intro k; simp only [Exec.unfinished, hg]; rw [← List.filter_append]; rfl
      · intro k; simp [Exec.unnooped, hg, cls, hxn]
  | nooping r =>
    cases r with
    | cons x r =>
      simp only [goStep]
      simp only [Phase.ok] at hok
      have hx := suffix_cons hok
      have hxn := E.kindN x hx.1
      apply go_inv (p' := .nooping r) (C := []) (D := [x]) I W he hg (by rfl) (by rfl) (by simp [setGo, State.setE, completeNoop, hset]) (by rfl) (by rfl) (by rfl)
        (by simp [setGo, State.setE, completeNoop]) (by simp [setGo, State.setE, completeNoop]) (by rfl)
      · simp only [Phase.ok]; exact hx.2
      · simp
      · intro y hy
        rw [List.mem_singleton] at hy
        subst hy
        exact ⟨fun h => by rw [hxn] at h; simp at h, fun _ => hx.1⟩
      · simp [Exec.unstarted, hg]
      · intro k; simp [Exec.unfinished, hg, cls, hxn]
      · intro k; simp only [Exec.unnooped, hg]; rw [← List.filter_append]; rfl
    | nil =>
      simp only [goStep, finish]
      have hr := reset_inv I he hg rfl
      have herase : (s.execs i).gos.eraseIdx 0 = [] := by rw [hg]; rfl
      rw [herase]
      exact flushPending_inv hr.1 (fun h => absurd h hr.2)

theorem inv_congr {s s' : State K} {P : List (Item K)} (I : Inv s P) (h1 : s'.n = s.n) (h2 : s'.maxSize = s.maxSize) (h3 : s'.execs = s.execs)
    (h4 : s'.assign = s.assign) (h5 : s'.count = s.count) (h6 : s'.added = s.added) (h7 : s'.calls = s.calls) (h8 : s'.done = s.done) : Inv s' P := by
  refine ⟨str_congr I.str h1 h2 h3 h4 h5, ?_, ?_, ?_, ?_⟩
  · rw [h7]; exact line_congr I.started h4 h6 (fun i => by rw [h3])
  · rw [h8]; exact line_congr I.finished h4 h6 (fun i => by rw [h3])
  · rw [h8]; exact line_congr I.nooped h4 h6 (fun i => by rw [h3])
  · intro k; rw [h6]; exact I.mix k

/-- The invariant of every reachable state. -/
def Good (s : State K) : Prop := Inv s s.pending ∧ Waits s s.pending

theorem good_step {s s' : State K} {l : Label K} (G : Good s) (h : step s l = some s') : Good s' := by
  obtain ⟨I, W⟩ := G
  cases l with
  | call t b =>
    simp only [step] at h
    split at h
    · simp only [Option.some.injEq] at h
      subst h
      exact ⟨inv_congr I rfl rfl rfl rfl rfl rfl rfl rfl, W⟩
    · simp at h
  | add t =>
    simp only [step] at h
    split at h
    · simp at h
    · rename_i x r hx
      simp only [Option.some.injEq] at h
      subst h
      exact addOne_inv x (inv_congr I rfl rfl rfl rfl rfl rfl rfl rfl) W
  | fire i =>
    simp only [step] at h
    split at h
    · rename_i ht
      simp only [Option.some.injEq] at h
      have E := I.str.eok i
      have hi : i < s.n := lt_of_ne I.str (by intro h; rw [h] at ht; simp at ht)
      have he : (s.execs i).executing = false := by
        by_contra hc
        have := E.untimed (by simpa using hc)
        rw [ht] at this; simp at this
      subst h
      have S' : Str (s.setE i { s.execs i with timer := .fired, late := (s.execs i).late + 1 }) := by
        refine str_upd (i := i) (e := { s.execs i with timer := .fired, late := (s.execs i).late + 1 }) I.str hi (by rfl) (by rfl) (by rfl) (by rfl) ?_ ?_ (fun x h => h) (fun x h => h)
        · change s.count = (busy (upd s.execs i _) s.n : Int)
          rw [busy_upd_same]
          · exact I.str.cnt
          · rfl
        · exact ⟨E.idle, E.go, E.room, E.size, by simp, by simp [he], by simp, E.kindI, E.kindN⟩
      exact ⟨inv_exec I S' rfl rfl rfl rfl rfl rfl rfl rfl, waits_exec W rfl rfl rfl (fun h => h)⟩
    · simp at h
  | flush i =>
    simp only [step] at h
    split at h
    · simp at h
    · rename_i m hm
      simp only [Option.some.injEq] at h
      subst h
      exact condExec_inv I W hm
  | go i j =>
    simp only [step, Option.map_eq_some_iff] at h
    obtain ⟨p, hp, rfl⟩ := h
    exact goStep_inv I W hp

theorem good_run {s s' : State K} {ls : List (Label K)} (G : Good s) (h : run s ls = some s') : Good s' := by
  induction ls generalizing s with
  | nil => simp only [run, Option.some.injEq] at h; subst h; exact G
  | cons l ls ih =>
    simp only [run, Option.bind_eq_some_iff] at h
    obtain ⟨s1, e1, e2⟩ := h
    exact ih (good_step G e1) e2

theorem good_reach {max n : Nat} (hm : 1 ≤ max) {s : State K} (h : Reach max n s) : Good s := by
  obtain ⟨ls, h⟩ := h
  exact good_run (inv_init max n hm) h

end Verif.Batcher
