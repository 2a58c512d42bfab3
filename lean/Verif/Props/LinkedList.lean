import Verif.LinkedList.Proofs
/-
Property C41: the linked list of `streams/sak/yadll.go` is a sequence.

The specification (`Spec.State`, `Spec.exec` in `Verif/LinkedList/Proofs.lean`) knows only finite sequences of element numbers.
-/
namespace Verif.LinkedList

variable {V : Type}

/-- The specification state before any operation. -/
def Spec.start (v : V) : Spec.State V := { seq := fun _ => [], value := fun _ => v, fresh := 0 }

/-- Reading a list the way users do: `for e := l.Front(); e != nil; e = e.Next()`, at most `n` steps. -/
def walk (h : Heap V) : Nat → Option Addr → List Nat
  | 0, _ => []
  | n + 1, some (.elem e) => e :: walk h n (nextOf h e)
  | _ + 1, _ => []

/-- Reading a list backwards: `for e := l.Back(); e != nil; e = e.Prev()`. -/
def walkBack (h : Heap V) : Nat → Option Addr → List Nat
  | 0, _ => []
  | n + 1, some (.elem e) => e :: walkBack h n (prevOf h e)
  | _ + 1, _ => []

theorem walk_eq {h : Heap V} {s : Spec.State V} (R : Rep h s) {l : Nat} : ∀ (bs as : List Nat) (n : Nat),
    s.seq l = as ++ bs → bs.length ≤ n → walk h n (bs.head?.map Addr.elem) = bs := by
  intro bs
  induction bs with
  | nil => intro as n _ _; cases n <;> simp [walk]
  | cons b bs ih =>
    intro as n hs hn
    cases n with
    | zero => simp at hn
    | succ n =>
      simp only [List.head?_cons, Option.map_some, walk]
      rw [rep_nextOf R hs, ih (as ++ [b]) n (by simp [hs]) (by simpa using hn)]

theorem walkBack_eq {h : Heap V} {s : Spec.State V} (R : Rep h s) {l : Nat} : ∀ (rs bs : List Nat) (n : Nat),
    s.seq l = rs.reverse ++ bs → rs.length ≤ n → walkBack h n (rs.reverse.getLast?.map Addr.elem) = rs := by
  intro rs
  induction rs with
  | nil => intro bs n _ _; cases n <;> simp [walkBack]
  | cons b rs ih =>
    intro bs n hs hn
    cases n with
    | zero => simp at hn
    | succ n =>
      simp only [List.reverse_cons, List.getLast?_concat, Option.map_some, walkBack]
      rw [rep_prevOf R (l := l) (as := rs.reverse) (bs := bs) (by rw [hs]; simp),
        ih (b :: bs) n (by rw [hs]; simp) (by simpa using hn)]

/-- C41. No sequence of calls panics, and afterwards each list, read from the front or from the back, is
the sequence the specification gives, with the specified values, and `Len` is its length. -/
theorem C41_refines (v : V) (ops : List (Op V)) :
    ∃ h, execAll (Heap.empty v) ops = some h ∧
      ∀ l, let s := ops.foldl Spec.exec (Spec.start v)
        len h l = (s.seq l).length ∧
        (∀ n, (s.seq l).length ≤ n → walk h n (front h l) = s.seq l) ∧
        (∀ n, (s.seq l).length ≤ n → walkBack h n (back h l) = (s.seq l).reverse) ∧
        (∀ e ∈ s.seq l, h.value e = s.value e) ∧ (s.seq l).Nodup := by
  obtain ⟨h, e1, R⟩ := rep_execAll (rep_empty v) ops
  refine ⟨h, e1, fun l => ⟨R.len l, ?_, ?_, fun e _ => R.value e, R.nodup l⟩⟩
  · intro n hn
    rw [rep_front R]
    exact walk_eq R (l := l) _ [] n rfl hn
  · intro n hn
    rw [rep_back R]
    have := walkBack_eq R (l := l) (s := ops.foldl Spec.exec (Spec.start v))
      (((ops.foldl Spec.exec (Spec.start v)).seq l).reverse) [] n (by simp [Spec.start]) (by simpa using hn)
    simpa [Spec.start] using this

/-- C41. `Next` and `Prev` of a single element: its neighbours in its list, nil at the ends, and nil for an
element that is in no list. -/
theorem C41_neighbours (v : V) (ops : List (Op V)) :
    ∃ h, execAll (Heap.empty v) ops = some h ∧
      let s := ops.foldl Spec.exec (Spec.start v)
      (∀ l as e bs, s.seq l = as ++ e :: bs →
        nextOf h e = bs.head?.map Addr.elem ∧ prevOf h e = as.getLast?.map Addr.elem) ∧
      (∀ e, (∀ l, e ∉ s.seq l) → nextOf h e = none ∧ prevOf h e = none) := by
  obtain ⟨h, e1, R⟩ := rep_execAll (rep_empty v) ops
  exact ⟨h, e1, fun l as e bs hs => ⟨rep_nextOf R hs, rep_prevOf R hs⟩, fun e he => rep_no_list R he⟩

/-- The element (or mark) arguments of a call together with the list it is called on. -/
def Op.uses : Op V → List (Nat × Nat)
  | .remove l e => [(l, e)]
  | .insertBefore l _ m => [(l, m)]
  | .insertAfter l _ m => [(l, m)]
  | .moveToFront l e => [(l, e)]
  | .moveToBack l e => [(l, e)]
  | .moveBefore l e m => [(l, e), (l, m)]
  | .moveAfter l e m => [(l, e), (l, m)]
  | _ => []

/-- C41. After any history, a call with an element that is not in the list it is called on leaves the
memory exactly as it was. -/
theorem C41_foreign_no_effect (v : V) (ops : List (Op V)) (op : Op V) (l e : Nat) (hu : (l, e) ∈ op.uses)
    (hf : e ∉ (ops.foldl Spec.exec (Spec.start v)).seq l) :
    ∃ h, execAll (Heap.empty v) ops = some h ∧ exec h op = some h := by
  obtain ⟨h, e1, R⟩ := rep_execAll (rep_empty v) ops
  refine ⟨h, e1, ?_⟩
  have ho : h.owner e ≠ some l := fun hc => hf ((R.own e l).mp hc)
  cases op <;> simp [Op.uses] at hu
  case remove => obtain ⟨rfl, rfl⟩ := hu; simp [exec, ho]
  case insertBefore => obtain ⟨rfl, rfl⟩ := hu; simp [exec, ho]
  case insertAfter => obtain ⟨rfl, rfl⟩ := hu; simp [exec, ho]
  case moveToFront => obtain ⟨rfl, rfl⟩ := hu; simp [exec, ho]
  case moveToBack => obtain ⟨rfl, rfl⟩ := hu; simp [exec, ho]
  case moveBefore =>
    rcases hu with ⟨rfl, rfl⟩ | ⟨rfl, rfl⟩
    · simp [exec, ho]
    · simp only [exec]; rw [if_pos (.inr (.inr ho))]
  case moveAfter =>
    rcases hu with ⟨rfl, rfl⟩ | ⟨rfl, rfl⟩
    · simp [exec, ho]
    · simp only [exec]; rw [if_pos (.inr (.inr ho))]

/-- Finding beside C41 (`streams/sak/yadll.go:50-55,130-137`): `Init` empties a list without resetting the
elements it held, so removing such an element afterwards is not ignored: the length becomes -1. `Init` is
therefore not among the operations of the theorems above. -/
theorem C41_init_stale_element :
    (match exec (Heap.empty 0) (.pushBack 0 7) with
      | some h => (remove (init h 0) 0 0).map (fun h' => (h.owner 0, len h' 0))
      | none => none) = some (some 0, -1) := by decide

-- A program over two lists with moves, foreign elements and copying a list onto itself.
example : (match execAll (Heap.empty 0) [.pushBack 0 7, .pushBack 0 8, .pushFront 0 9, .moveToFront 0 1, .insertBefore 0 5 0,
      .moveBefore 0 2 1, .remove 1 0, .pushBackList 1 0, .pushFrontList 0 0, .moveAfter 1 4 6] with
    | some h => ((walk h 99 (front h 0)).map h.value, (walk h 99 (front h 1)).map h.value, len h 0)
    | none => ([], [], 0)) = ([9, 8, 5, 7, 9, 8, 5, 7], [8, 5, 9, 7], 8) := by decide

-- The hypotheses of `C41_foreign_no_effect`: element 0 is in list 0, not in list 1.
example : (1, 0) ∈ (Op.moveToFront 1 0 : Op Nat).uses ∧
    0 ∉ (([.pushBack 0 7, .pushBack 1 8] : List (Op Nat)).foldl Spec.exec (Spec.start 0)).seq 1 := by decide

end Verif.LinkedList
