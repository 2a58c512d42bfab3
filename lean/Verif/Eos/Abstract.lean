import Verif.Eos.Model
/-
The pool with its nodes numbered by the transactions they work for instead of by their place in the ring. The abstraction
is an aid of the proofs; `Verif.Eos.Sim` shows that every run of the pool is a run of it.
-/
set_option linter.unusedSectionVars false
set_option linter.unusedSimpArgs false
namespace Verif.Eos

/-- `Com` without the node, which is the one of transaction `lo`. -/
inductive ACom where
  | idle
  | begun
  | fin (cur : List Ev) (flag : Bool) (rest : List Nat)
  | relinq (rest : List Nat)
  | back
  | stopped
  deriving DecidableEq, Repr

/-- The pool seen by transactions: those from `lo` to `gen` are alive, those from `st` on are still to be committed. -/
structure A where
  nodes : Nat → Node
  lo : Nat
  st : Nat
  gen : Nat
  owner : Nat → Option Nat
  fwd : Fwd
  com : ACom
  done : List Nat
  asg : Nat → Option Nat
  added : List (Ev × Nat)
  calls : List Out
  sent : List Out
  ended : List (Nat × Bool)

/-- `Pool.init` by transactions (`streams/eos_producer.go:97-133`). -/
def A.init : A :=
  { nodes := fun _ => Node.new, lo := 0, st := 0, gen := 0, owner := fun _ => none, fwd := .idle, com := .idle, done := [],
    asg := fun _ => none, added := [], calls := [], sent := [], ended := [] }

/-- One past the last transaction that was queued for commit. -/
def A.top (a : A) : Nat := if a.fwd = .swap then a.gen + 1 else a.gen

/-- `produce` by transactions (`ProduceRecord`, `streams/eos_producer.go:494-512`). -/
def aproduce (a : A) (g tp : Nat) (r : Rec) : A :=
  let nd := { a.nodes g with produceCnt := (a.nodes g).produceCnt + 1 }
  let o : Out := ⟨g, tp, r⟩
  if a.owner tp = some g then
    { a with nodes := upd a.nodes g { nd with opened := true }, calls := a.calls ++ [o], sent := a.sent ++ [o] }
  else
    { a with nodes := upd a.nodes g { nd with buf := nd.buf ++ [(tp, r)] }, calls := a.calls ++ [o] }

/-- `flushPartition` by transactions (`streams/eos_producer.go:469-480`). -/
def aflushPartition (a : A) (q tp : Nat) : A :=
  let hit := (a.nodes q).buf.filter fun e => e.1 = tp
  { a with
    nodes := upd a.nodes q { a.nodes q with
      buf := (a.nodes q).buf.filter fun e => e.1 ≠ tp
      opened := (a.nodes q).opened || !hit.isEmpty }
    sent := a.sent ++ hit.map fun e => ⟨q, e.1, e.2⟩ }

/-- `beginCommit` by transactions (`streams/eos_producer.go:364-369`). -/
def abeginCommit (a : A) : A :=
  { a with
    nodes := upd a.nodes a.lo { a.nodes a.lo with opened := true }
    sent := a.sent ++ (a.nodes a.lo).buf.map fun e => ⟨a.lo, e.1, e.2⟩
    owner := fun tp => if (a.nodes a.lo).has tp then some a.lo else a.owner tp }

/-- `relinquish` by transactions (`streams/eos_producer.go:446-463`). -/
def arelinquish (n : Nat) (a : A) (tp : Nat) : A :=
  let a' :=
    match (List.range' (a.lo + 1) (n - 1)).find? fun g => (a.nodes g).has tp with
    | some q => let a1 := aflushPartition a q tp; { a1 with owner := upd a1.owner tp (some q) }
    | none => { a with owner := upd a.owner tp none }
  { a' with nodes := upd a'.nodes a.lo { a'.nodes a.lo with evs := (a'.nodes a.lo).evs.filter fun e => e.part ≠ tp } }

/-- `step` by transactions: the same code (`streams/eos_producer.go:144-240,336-467`) with nodes named by transaction. -/
def astep (c : Cfg) (a : A) : Label → Option A
  | .add e =>
    match a.fwd, a.com with
    | .idle, .relinq _ => none
    | .idle, _ =>
      if e.id ∈ a.added.map (fun x => x.1.id) then none else
      some { a with
        nodes := upd a.nodes a.gen { a.nodes a.gen with
          evs := (a.nodes a.gen).evs ++ [e], cnt := (a.nodes a.gen).cnt + 1 }
        fwd := .added e
        added := a.added ++ [(e, a.gen)] }
    | _, _ => none
  | .give =>
    match a.fwd with
    | .added e => some { a with
        owner := if a.owner e.part = none then upd a.owner e.part (some a.gen) else a.owner
        asg := upd a.asg e.id (some a.gen)
        fwd := .given }
    | _ => none
  | .check =>
    match a.fwd with
    | .given => some { a with fwd := if c.target ≤ (a.nodes a.gen).load then .trying else .idle }
    | _ => none
  | .tick =>
    match a.fwd with
    | .idle => some { a with fwd := .trying }
    | _ => none
  | .tryFlush =>
    match a.fwd with
    | .trying =>
      if (a.nodes a.gen).load = c.max then some { a with fwd := .force }
      else if 0 < (a.nodes a.gen).cnt then
        if a.gen - a.st < c.pending then some { a with fwd := .swap }
        else some { a with fwd := .idle }
      else some { a with fwd := .idle }
    | _ => none
  | .forced =>
    match a.fwd with
    | .force => if a.gen - a.st < c.pending then some { a with fwd := .swap } else none
    | _ => none
  | .swapIn =>
    match a.fwd with
    | .swap => if a.gen + 1 < a.lo + c.poolSize then some { a with fwd := .idle, gen := a.gen + 1 } else none
    | _ => none
  | .take =>
    match a.com with
    | .idle => if a.st < a.top then some { a with st := a.st + 1, com := .begun } else none
    | _ => none
  | .beginCommit order =>
    match a.com with
    | .begun =>
      if IsOrder order (a.nodes a.lo).parts then some { abeginCommit a with com := .fin [] false order } else none
    | _ => none
  | .wait =>
    match a.com with
    | .fin (e :: es) flag rest =>
      if e.id ∈ a.done then
        match flag, e.off with
        | false, some o => some { aproduce a a.lo e.part (.commit e.part (o + 1)) with com := .fin es true rest }
        | _, _ => some { a with com := .fin es flag rest }
      else none
    | .fin [] _ (tp :: rest) => some { a with com := .fin ((a.nodes a.lo).chain tp) false rest }
    | _ => none
  | .endTxn order =>
    match a.com with
    | .fin [] _ [] =>
      if IsOrder order (a.nodes a.lo).parts then
        some { a with
          ended := a.ended ++ [(a.lo, decide ((a.nodes a.lo).produceCnt ≠ 0))]
          com := .relinq order }
      else none
    | _ => none
  | .release =>
    match a.com with
    | .relinq (tp :: rest) => some { arelinquish c.poolSize a tp with com := .relinq rest }
    | .relinq [] => some { a with nodes := upd a.nodes a.lo (a.nodes a.lo).clear, com := .back }
    | _ => none
  | .giveBack =>
    match a.com with
    | .back => some { a with lo := a.lo + 1, com := .idle }
    | _ => none
  | .commitFail cont =>
    match a.com with
    | .fin _ _ _ => if cont then none else some { a with com := .stopped }
    | _ => none
  | .asyncFail =>
    match a.com with
    | .idle => some { a with com := .stopped }
    | _ => none
  | .produce e x =>
    match a.asg e.id with
    | some g =>
      if e ∈ a.added.map Prod.fst ∧ e.id ∉ a.done then some (aproduce a g e.part (.user x)) else none
    | none => none
  | .complete e =>
    match a.asg e.id with
    | some _ =>
      if e ∈ a.added.map Prod.fst ∧ e.id ∉ a.done then some { a with done := a.done ++ [e.id] } else none
    | none => none

/-- The states reached by `astep`, see `Reach`. -/
inductive AReach (c : Cfg) : A → Prop where
  | init : AReach c A.init
  | step {a a' : A} (l : Label) : AReach c a → astep c a l = some a' → AReach c a'

/-! ### Basic lemmas -/

theorem upd_same {α : Type} (f : Nat → α) (i : Nat) (x : α) : upd f i x i = x := by simp [upd]
theorem upd_ne {α : Type} (f : Nat → α) {i j : Nat} (x : α) (h : j ≠ i) : upd f i x j = f j := by simp [upd, h]

/-- The events of transaction `g`, in the order in which they were added. -/
def evOf (added : List (Ev × Nat)) (g : Nat) : List Ev := (added.filter fun x => x.2 = g).map Prod.fst

theorem mem_evOf {added : List (Ev × Nat)} {g : Nat} {e : Ev} : e ∈ evOf added g ↔ (e, g) ∈ added := by
  unfold evOf
  simp only [List.mem_map, List.mem_filter, decide_eq_true_eq]
  constructor
  · rintro ⟨⟨e', g'⟩, ⟨h, hg⟩, rfl⟩; simp only at hg; subst hg; exact h
  · intro h; exact ⟨(e, g), ⟨h, rfl⟩, rfl⟩

theorem evOf_snoc (added : List (Ev × Nat)) (e : Ev) (g g' : Nat) :
    evOf (added ++ [(e, g)]) g' = if g' = g then evOf added g' ++ [e] else evOf added g' := by
  unfold evOf
  rw [List.filter_append, List.map_append]
  by_cases h : g' = g
  · subst h; simp
  · rw [if_neg h]
    simp [Ne.symm h]

theorem evOf_nil {added : List (Ev × Nat)} {g : Nat} (h : ∀ x ∈ added, x.2 ≠ g) : evOf added g = [] := by
  unfold evOf
  rw [List.map_eq_nil_iff, List.filter_eq_nil_iff]
  intro x hx; simpa using h x hx

/-- The node of a transaction that is being released has given up the partitions not in the list. -/
def A.relinquished (a : A) : Option (List Nat) :=
  match a.com with
  | .relinq rest => some rest
  | .back => some []
  | _ => none

end Verif.Eos
