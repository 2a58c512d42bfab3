import Verif.Nodes.Model
/-
Proofs for `Verif.Nodes`: what each goroutine may access, and that the others do not access it at the same time.
-/
namespace Verif.Nodes

/-- What is known about a goroutine: its locks; for the commit loop whether it has waited for the events and the client and whether `txnContext` is set; `mine`: it has the node. -/
structure A where
  held : List (Lock × Bool)
  mine : Bool
  done : Bool
  flushed : Bool
  set : Bool

/-- How this changes. -/
def nx (n : Nat) (a : A) : Instr → A
  | .lock l => { a with held := (l, true) :: a.held }
  | .rlock l => { a with held := (l, false) :: a.held }
  | .unlock l => { a with held := a.held.erase (l, true) }
  | .runlock l => { a with held := a.held.erase (l, false) }
  | .ensure m => { a with set := a.set || m = n }
  | .setCtx m => { a with set := a.set || m = n }
  | .clearCtx m => { a with set := a.set && m ≠ n }
  | .waitEvents _ => { a with done := true }
  | .waitClient _ => { a with flushed := true }
  | .enqueue _ => { a with mine := false }
  | .giveBack _ => { a with mine := false }
  | .lose _ => { a with mine := false }
  | _ => a

/-- A program that only does what is allowed. -/
def Ok (al : A → Instr → Prop) (n : Nat) : A → List Instr → Prop
  | _, [] => True
  | a, i :: is => a.mine = true ∧ al a i ∧ Ok al n (nx n a i) is

def aft (n : Nat) (a : A) (is : List Instr) : A := is.foldl (nx n) a

theorem ok_append {al : A → Instr → Prop} {n : Nat} {a : A} {is js : List Instr} : Ok al n a (is ++ js) ↔ Ok al n a is ∧ Ok al n (aft n a is) js := by
  induction is generalizing a with
  | nil => simp [Ok, aft]
  | cons i is ih => simp only [List.cons_append, Ok, ih, aft, List.foldl_cons, and_assoc]

theorem aft_append {n : Nat} {a : A} {is js : List Instr} : aft n a (is ++ js) = aft n (aft n a is) js := by simp [aft]

/-- The forwarder with node `n` on deck. -/
def alF (n : Nat) (a : A) : Instr → Prop
  | .lock _ => True
  | .unlock _ => True
  | .acc m f k => m = n ∧ match f with
    | .events => True
    | .first => True
    | .parts => (.part n, true) ∈ a.held
    | .produced => k = .atomic
    | _ => False
  | .grant m => m = n
  | .enqueue m => m = n ∧ a.held = []
  | _ => False

/-- The goroutine of an event of node `n`. -/
def alW (n : Nat) (a : A) : Instr → Prop
  | .lock _ => True
  | .unlock _ => True
  | .acc m f k => m = n ∧ (.produce n, true) ∈ a.held ∧ match f with
    | .produced => True
    | .records => True
    | .ctx => k = .read
    | _ => False
  | .ensure m => m = n ∧ (.produce n, true) ∈ a.held
  | .setCtx m => m = n ∧ (.produce n, true) ∈ a.held
  | .produce m => m = n ∧ (.produce n, true) ∈ a.held
  | _ => False

/-- The commit loop with node `n`. -/
def alC (n : Nat) (a : A) : Instr → Prop
  | .lock _ => True
  | .unlock _ => True
  | .rlock _ => True
  | .runlock _ => True
  | .acc m f k => match f with
    | .ctx => k = .read ∧ ((.produce m, true) ∈ a.held ∨ m = n ∧ (a.set = true ∨ a.done = true))
    | .records => (.produce m, true) ∈ a.held ∨ m = n ∧ a.done = true
    | .produced => m = n ∧ ((.produce m, true) ∈ a.held ∨ a.done = true)
    | .bytes => m = n ∧ a.flushed = true
    | .events => m = n
    | .first => m = n
    | .parts => m = n ∨ k = .read ∧ (.part m, false) ∈ a.held
  | .ensure m => (.produce m, true) ∈ a.held
  | .setCtx m => (.produce m, true) ∈ a.held
  | .clearCtx m => m = n ∧ a.done = true
  | .produce m => m = n → a.flushed = false
  | .waitEvents m => m = n
  | .waitClient m => m = n ∧ a.done = true
  | .mayFail m => m = n ∧ a.held = [(.commit n, true)]
  | .giveBack m => m = n ∧ a.held = []
  | .lose m => m = n ∧ a.held = []
  | .grant _ => False
  | .enqueue _ => False

/-! ### The programs -/

/-- A block that leaves what is known as it was. -/
def Blk (al : A → Instr → Prop) (n : Nat) (a : A) (is : List Instr) : Prop := Ok al n a is ∧ aft n a is = a

theorem Blk.append {al : A → Instr → Prop} {n : Nat} {a : A} {is js : List Instr} (h : Blk al n a is) (h' : Blk al n a js) : Blk al n a (is ++ js) :=
  ⟨ok_append.2 ⟨h.1, by rw [h.2]; exact h'.1⟩, by rw [aft_append, h.2, h'.2]⟩

theorem Blk.flatten {al : A → Instr → Prop} {n : Nat} {a : A} {ls : List (List Instr)} (h : ∀ l ∈ ls, Blk al n a l) : Blk al n a ls.flatten := by
  induction ls with
  | nil => exact ⟨trivial, rfl⟩
  | cons l ls ih => exact (h l (by simp)).append (ih fun x hx => h x (by simp [hx]))

theorem Blk.nil {al : A → Instr → Prop} {n : Nat} {a : A} : Blk al n a [] := ⟨trivial, rfl⟩

theorem Blk.cons {al : A → Instr → Prop} {n : Nat} {a : A} {i : Instr} {is : List Instr} (h1 : a.mine = true) (h2 : al a i) (h3 : nx n a i = a) (h : Blk al n a is) : Blk al n a (i :: is) := by
  refine ⟨⟨h1, h2, by rw [h3]; exact h.1⟩, ?_⟩
  show aft n (nx n a i) is = a
  rw [h3]; exact h.2

theorem turn_ok (n : Nat) (x : Turn) : Ok (alF n) n ⟨[], true, false, false, false⟩ (turn n x) ∧ (aft n ⟨[], true, false, false, false⟩ (turn n x)).held = [] := by
  cases x with
  | event first flush =>
    rcases flush with _ | ⟨force, sends⟩
    · cases first <;> simp [turn, addEvent, full, within, Ok, aft, alF, nx]
    · cases first <;> cases force <;> cases sends <;> simp [turn, addEvent, full, tryFlush, within, Ok, aft, alF, nx]
  | timer force sends => cases force <;> cases sends <;> simp [turn, full, tryFlush, Ok, aft, alF, nx]

theorem produceRecord_ok (n : Nat) (owned : Bool) (a : A) (ha : a.held = []) (hm : a.mine = true) : Ok (alW n) n a (produceRecord n owned) ∧ (aft n a (produceRecord n owned)).held = [] := by
  cases owned <;> simp [produceRecord, send, within, Ok, aft, alW, nx, ha, hm]

/-- `produceKafkaRecord` in the commit loop, with the lock. -/
theorem send_ok (n m : Nat) (a : A) (hm : a.mine = true) (hl : (Lock.produce m, true) ∈ a.held) (hs : m = n → a.set = true ∧ a.flushed = false) : Blk (alC n) n a (send m) := by
  have he : nx n a (.ensure m) = a := by
    obtain ⟨h, mi, d, f, s⟩ := a
    by_cases e : m = n
    · have := (hs e).1; simp only [nx, e] at *; simp [this]
    · simp [nx, e]
  refine .cons hm hl he (.cons hm ⟨rfl, .inl hl⟩ rfl (.cons hm (fun e => (hs e).2) rfl .nil))

theorem sends_ok (n m k : Nat) (a : A) (hm : a.mine = true) (hl : (Lock.produce m, true) ∈ a.held) (hs : m = n → a.set = true ∧ a.flushed = false) :
    Blk (alC n) n a (List.replicate k (send m)).flatten :=
  .flatten fun l hl' => by rw [(List.mem_replicate.1 hl').2]; exact send_ok n m a hm hl hs

/-- A block inside a lock. -/
theorem Blk.within {n : Nat} {a : A} {l : Lock} {is : List Instr} (hm : a.mine = true) (h : Blk (alC n) n { a with held := (l, true) :: a.held } is) : Blk (alC n) n a (within l is) := by
  have e : nx n { a with held := (l, true) :: a.held } (.unlock l) = a := by simp [nx]
  constructor
  · refine ⟨hm, trivial, ok_append.2 ⟨h.1, ?_⟩⟩
    show Ok _ _ (aft n { a with held := (l, true) :: a.held } is) _
    rw [h.2]; exact ⟨hm, trivial, trivial⟩
  · show aft n { a with held := (l, true) :: a.held } (is ++ [.unlock l]) = a
    rw [aft_append, h.2]; exact e

theorem lookAt_ok (n m : Nat) (found : Option Nat) (a : A) (hm : a.mine = true) (hp : (Lock.part m, false) ∈ a.held) (hne : m ≠ n) : Blk (alC n) n a (lookAt m found) := by
  refine .within hm ?_
  have hl : (Lock.produce m, true) ∈ ({ a with held := (Lock.produce m, true) :: a.held } : A).held := by simp
  have hread : Blk (alC n) n { a with held := (Lock.produce m, true) :: a.held } [.acc m .parts .read] :=
    .cons hm (Or.inr ⟨rfl, by simp [hp]⟩) rfl .nil
  cases found with
  | none => exact hread
  | some k =>
    refine hread.append (.cons hm (Or.inl hl) rfl (.append (sends_ok n m k _ hm hl fun e => absurd e hne) ?_))
    exact .cons hm (Or.inl hl) rfl (.cons hm (Or.inl hl) rfl .nil)

theorem rlocks_ok (n : Nat) (ms : List Nat) (a : A) (hm : a.mine = true) : Ok (alC n) n a (ms.map fun m => Instr.rlock (.part m)) ∧
    aft n a (ms.map fun m => Instr.rlock (.part m)) = { a with held := (ms.map fun m => (Lock.part m, false)).reverse ++ a.held } := by
  induction ms generalizing a with
  | nil => exact ⟨trivial, rfl⟩
  | cons m ms ih =>
    have := ih (nx n a (.rlock (.part m))) hm
    refine ⟨⟨hm, trivial, this.1⟩, ?_⟩
    show aft n (nx n a (.rlock (.part m))) _ = _
    rw [this.2]; simp [nx]

theorem runlocks_ok (n : Nat) (ms : List Nat) (a : A) (hm : a.mine = true) (held : List (Lock × Bool)) (h : a.held.Perm ((ms.map fun m => (Lock.part m, false)) ++ held)) :
    Ok (alC n) n a (ms.map fun m => Instr.runlock (.part m)) ∧
      ∃ h', h'.Perm held ∧ aft n a (ms.map fun m => Instr.runlock (.part m)) = { a with held := h' } := by
  induction ms generalizing a with
  | nil => exact ⟨trivial, a.held, by simpa using h, rfl⟩
  | cons m ms ih =>
    have hp : (nx n a (.runlock (.part m))).held.Perm ((ms.map fun m => (Lock.part m, false)) ++ held) := by
      have := h.erase (Lock.part m, false)
      simpa [nx] using this
    obtain ⟨h1, h', h2, h3⟩ := ih (nx n a (.runlock (.part m))) hm hp
    refine ⟨⟨hm, trivial, h1⟩, h', h2, ?_⟩
    show aft n (nx n a (.runlock (.part m))) _ = _
    rw [h3]; simp [nx]

theorem relinquish_ok (n : Nat) (others : List Nat) (tps : List (List (Nat × Option Nat))) (hn : n ∉ others) (ht : ∀ l ∈ tps, ∀ x ∈ l, x.1 ∈ others) (a : A) (hm : a.mine = true)
    (hh : a.held = [(Lock.commit n, true)]) : Blk (alC n) n a (relinquish n others tps) := by
  obtain ⟨h1, h2⟩ := rlocks_ok n others a hm
  let b : A := { a with held := (others.map fun m => (Lock.part m, false)).reverse ++ a.held }
  have hb : b.mine = true := hm
  have hmid : Blk (alC n) n b (Instr.acc n .parts .read :: (tps.map fun l => (l.map fun x => lookAt x.1 x.2).flatten ++ [.acc n .parts .write]).flatten) := by
    refine .cons hb (Or.inl rfl) rfl (.flatten fun l hl => ?_)
    obtain ⟨l, hl', rfl⟩ := List.mem_map.1 hl
    refine .append (.flatten fun y hy => ?_) (.cons hb (Or.inl rfl) rfl .nil)
    obtain ⟨x, hx, rfl⟩ := List.mem_map.1 hy
    have := ht l hl' x hx
    refine lookAt_ok n x.1 x.2 b hb ?_ (fun e => hn (e ▸ this))
    simp [b, this]
  obtain ⟨h3, h', h4, h5⟩ := runlocks_ok n others b hb a.held ((List.reverse_perm _).append_right _)
  have e : ({ b with held := h' } : A) = a := by
    rw [hh] at h4
    have := List.perm_singleton.1 h4
    rw [this, ← hh]
  have key : relinquish n others tps = (others.map fun m => Instr.rlock (.part m)) ++ ((Instr.acc n .parts .read :: (tps.map fun l => (l.map fun x => lookAt x.1 x.2).flatten ++ [.acc n .parts .write]).flatten) ++
      (others.map fun m => Instr.runlock (.part m))) := by simp [relinquish]
  rw [key]
  constructor
  · rw [ok_append, h2, ok_append]
    refine ⟨h1, hmid.1, ?_⟩
    show Ok _ _ (aft n b _) _
    rw [hmid.2]; exact h3
  · rw [aft_append, h2, aft_append]
    show aft n (aft n b _) _ = a
    rw [hmid.2, h5, e]

theorem commit_ok (n : Nat) (others : List Nat) (p : Plan) (hn : n ∉ others) (ht : ∀ l ∈ p.tps, ∀ x ∈ l, x.1 ∈ others) : Ok (alC n) n ⟨[], true, false, false, false⟩ (commit n others p) := by
  -- `flushRemaining`
  let a1 : A := ⟨[(.produce n, true), (.commit n, true)], true, false, false, true⟩
  let a2 : A := ⟨[(.commit n, true)], true, false, false, true⟩
  let a3 : A := ⟨[(.commit n, true)], true, true, true, true⟩
  let a4 : A := ⟨[(.commit n, true)], true, true, true, false⟩
  have hsend : Blk (alC n) n a1 (List.replicate p.waiting (send n)).flatten := sends_ok n n _ a1 rfl (by simp [a1]) (fun _ => ⟨rfl, rfl⟩)
  have b1 : Blk (alC n) n a1 (.acc n .records .read :: (List.replicate p.waiting (send n)).flatten ++ [.acc n .parts .read]) :=
    (Blk.cons rfl (Or.inl (by simp [a1])) rfl hsend).append (.cons rfl (Or.inl rfl) rfl .nil)
  have b2 : Blk (alC n) n a2 (.acc n .parts .read :: (p.finals.map (finalizeOne n)).flatten) := by
    refine .cons rfl (Or.inl rfl) rfl (.flatten fun l hl => ?_)
    obtain ⟨c, _, rfl⟩ := List.mem_map.1 hl
    refine .cons rfl ⟨rfl, Or.inr ⟨rfl, Or.inl rfl⟩⟩ rfl (.cons rfl ⟨rfl, rfl⟩ rfl ?_)
    cases c
    · exact .nil
    · refine .within rfl (.cons rfl ⟨rfl, Or.inl (by simp)⟩ rfl (.cons rfl ⟨rfl, Or.inl (by simp)⟩ rfl ?_))
      exact send_ok n n _ rfl (by simp) (fun _ => ⟨rfl, rfl⟩)
  have b4 := relinquish_ok n others p.tps hn ht a4 rfl rfl
  have key : commit n others p = [.lock (.commit n), .lock (.produce n), .ensure n] ++ ((.acc n .records .read :: (List.replicate p.waiting (send n)).flatten ++ [.acc n .parts .read]) ++ ([.unlock (.produce n)] ++
      ((.acc n .parts .read :: (p.finals.map (finalizeOne n)).flatten) ++ ([.waitEvents n, .acc n .ctx .read, .mayFail n, .waitClient n, .acc n .produced .read, .acc n .ctx .read, .mayFail n, .acc n .ctx .read, .clearCtx n,
        .acc n .parts .read, .acc n .parts .read] ++ (relinquish n others p.tps ++ ([.acc n .produced .read, .acc n .first .read, .acc n .produced .read, .acc n .bytes .read, .acc n .produced .write, .acc n .events .write, .acc n .bytes .write, .acc n .records .read, .acc n .records .write] ++
          [.unlock (.commit n), .giveBack n])))))) := by
    simp [commit, within, flushRemaining, clearState]
  rw [key, ok_append]
  refine ⟨by simp [Ok, alC, nx], ?_⟩
  have e1 : aft n ⟨[], true, false, false, false⟩ [.lock (.commit n), .lock (.produce n), .ensure n] = a1 := by simp [aft, nx, a1]
  rw [e1, ok_append]
  refine ⟨b1.1, ?_⟩
  rw [b1.2, ok_append]
  refine ⟨⟨rfl, trivial, trivial⟩, ?_⟩
  have e2 : aft n a1 [.unlock (.produce n)] = a2 := by simp [aft, nx, a1, a2]
  rw [e2, ok_append]
  refine ⟨b2.1, ?_⟩
  rw [b2.2, ok_append]
  refine ⟨by simp [Ok, alC, nx, a2], ?_⟩
  have e3 : aft n a2 [.waitEvents n, .acc n .ctx .read, .mayFail n, .waitClient n, .acc n .produced .read, .acc n .ctx .read, .mayFail n, .acc n .ctx .read, .clearCtx n, .acc n .parts .read, .acc n .parts .read] = a4 := by
    simp [aft, nx, a2, a4]
  rw [e3, ok_append]
  refine ⟨b4.1, ?_⟩
  rw [b4.2]
  simp [Ok, alC, nx, a4]

/-! ### The invariant -/

def Without (s : Pool) (r : Role) : Prop := ∀ (j : Nat) (u : Thread), s.threads[j]? = some u → u.role ≠ r

/-- What holds of a goroutine. -/
def TOk (s : Pool) (t : Thread) : Prop :=
  match t.role with
  | .forwarder => (s.deck = none ∧ t.rest = [] ∧ t.held = []) ∨
      ∃ n a, s.deck = some n ∧ a.held = t.held ∧ a.mine = true ∧ Ok (alF n) n a t.rest ∧ (aft n a t.rest).held = []
  | .committer => (s.current = none ∧ t.rest = [] ∧ t.held = []) ∨
      ∃ n a, s.current = some n ∧ a.held = t.held ∧ a.mine = true ∧ Ok (alC n) n a t.rest ∧ (a.done = true → Without s (.event n)) ∧ (a.flushed = true → a.done = true ∧ Without s (.callback n)) ∧
        (a.set = true → s.set n = true)
  | .event n => ∃ a : A, a.held = t.held ∧ a.mine = true ∧ Ok (alW n) n a t.rest ∧ (aft n a t.rest).held = [] ∧ (∀ m is, t.rest = .setCtx m :: is → s.set m = false) ∧ ∀ m, .setCtx m ∉ t.rest.tail
  | .callback n => t.held = [] ∧ (t.rest = [] ∨ t.rest = [.acc n .bytes .atomic])
  | .gone => t.held = [] ∧ t.rest = []

structure Inv (s : Pool) : Prop where
  two : 2 ≤ s.threads.length
  first : ∀ (i : Nat) (t : Thread), s.threads[i]? = some t → (t.role = .forwarder ↔ i = 0) ∧ (t.role = .committer ↔ i = 1)
  excl : ∀ (i j : Nat) (t u : Thread), s.threads[i]? = some t → s.threads[j]? = some u → i ≠ j → ∀ l b, (l, true) ∈ t.held → (l, b) ∉ u.held
  places : (s.deck.toList ++ s.queue ++ s.current.toList ++ s.free ++ s.lost).Perm (List.range s.size)
  all : ∀ (i : Nat) (t : Thread), s.threads[i]? = some t → TOk s t

theorem Inv.deck_ne {s : Pool} (h : Inv s) {n m : Nat} (h1 : s.deck = some n) (h2 : s.current = some m) : n ≠ m := by
  have := h.places.nodup_iff.2 List.nodup_range
  rw [h1, h2] at this
  simp only [Option.toList_some, List.nodup_cons, List.mem_append, List.cons_append, List.append_assoc] at this
  intro e
  exact this.1 (by simp [e])

/-- A goroutine is replaced, new ones may begin. -/
theorem rebuild {s s' : Pool} (h : Inv s) {i : Nat} {t t' : Thread} {new : List Thread} (hi : s.threads[i]? = some t) (hs : s'.threads = s.threads.set i t' ++ new)
    (hr : t'.role = t.role ∨ t'.role = .gone ∧ t.role ≠ .forwarder ∧ t.role ≠ .committer)
    (hnr : ∀ u ∈ new, u.held = [] ∧ u.role ≠ .forwarder ∧ u.role ≠ .committer)
    (hx : ∀ l, (l, true) ∈ t'.held → (l, true) ∈ t.held ∨ ∀ u ∈ s.threads, (l, true) ∉ u.held ∧ (l, false) ∉ u.held)
    (hy : ∀ l, (l, false) ∈ t'.held → (l, false) ∈ t.held ∨ ∀ u ∈ s.threads, (l, true) ∉ u.held)
    (hp : (s'.deck.toList ++ s'.queue ++ s'.current.toList ++ s'.free ++ s'.lost).Perm (List.range s'.size))
    (ht : TOk s' t') (hn : ∀ u ∈ new, TOk s' u) (ho : ∀ (j : Nat) (u : Thread), j ≠ i → s.threads[j]? = some u → TOk s u → TOk s' u) : Inv s' := by
  have hlt : i < s.threads.length := (List.getElem?_eq_some_iff.1 hi).1
  have look : ∀ j u, s'.threads[j]? = some u → (j = i ∧ u = t') ∨ (j ≠ i ∧ s.threads[j]? = some u) ∨ (s.threads.length ≤ j ∧ u ∈ new) := by
    intro j u hu
    rw [hs] at hu
    by_cases hj : j < (s.threads.set i t').length
    · rw [List.getElem?_append_left hj, List.getElem?_set] at hu
      by_cases e : i = j
      · rw [if_pos e, if_pos hlt] at hu
        exact .inl ⟨e.symm, (Option.some.inj hu).symm⟩
      · rw [if_neg e] at hu
        exact .inr (.inl ⟨fun h => e h.symm, hu⟩)
    · rw [List.getElem?_append_right (by omega)] at hu
      exact .inr (.inr ⟨by simpa using hj, List.mem_of_getElem? hu⟩)
  refine ⟨?_, ?_, ?_, hp, ?_⟩
  · have := h.two
    simp only [hs, List.length_append, List.length_set]; omega
  · intro j u hu
    rcases look j u hu with ⟨rfl, rfl⟩ | ⟨_, hu⟩ | ⟨hj, hu⟩
    · have := h.first _ t hi
      rcases hr with e | ⟨e, e1, e2⟩
      · rw [e]; exact this
      · rw [e]
        exact ⟨⟨by simp, fun e' => absurd (this.1.2 e') e1⟩, ⟨by simp, fun e' => absurd (this.2.2 e') e2⟩⟩
    · exact h.first j u hu
    · have hu' := hnr u hu
      have := h.two
      exact ⟨⟨fun e => absurd e hu'.2.1, fun e => by omega⟩, ⟨fun e => absurd e hu'.2.2, fun e => by omega⟩⟩
  · intro j k u v hu hv hjk l b hl
    rcases look j u hu with ⟨rfl, rfl⟩ | ⟨hj, hu⟩ | ⟨_, hu⟩
    · rcases look k v hv with ⟨rfl, rfl⟩ | ⟨hk, hv⟩ | ⟨_, hv⟩
      · exact absurd rfl hjk
      · rcases hx l hl with hl | hl
        · exact h.excl _ _ t v hi hv (Ne.symm hk) l b hl
        · have := hl v (List.mem_of_getElem? hv)
          cases b
          · exact this.2
          · exact this.1
      · rw [(hnr v hv).1]; simp
    · rcases look k v hv with ⟨rfl, rfl⟩ | ⟨hk, hv⟩ | ⟨_, hv⟩
      · intro hv'
        cases b
        · rcases hy l hv' with h' | h'
          · exact h.excl _ _ u t hu hi hj l false hl h'
          · exact h' u (List.mem_of_getElem? hu) hl
        · rcases hx l hv' with h' | h'
          · exact h.excl _ _ u t hu hi hj l true hl h'
          · exact (h' u (List.mem_of_getElem? hu)).1 hl
      · exact h.excl _ _ u v hu hv hjk l b hl
      · rw [(hnr v hv).1]; simp
    · rw [(hnr u hu).1] at hl; simp at hl
  · intro j u hu
    rcases look j u hu with ⟨rfl, rfl⟩ | ⟨hj, hu⟩ | ⟨_, hu⟩
    · exact ht
    · exact ho j u hj hu (h.all j u hu)
    · exact hn u hu

/-- Nothing that matters for the other goroutines has changed. -/
theorem tok_congr {s s' : Pool} {u : Thread} (hd : s'.deck = s.deck) (hc : s'.current = s.current) (hs : s'.set = s.set) (hw : ∀ r, r ≠ .gone → Without s r → Without s' r) (h : TOk s u) : TOk s' u := by
  obtain ⟨r, held, rest⟩ := u
  cases r with
  | forwarder => simpa only [TOk, hd] using h
  | committer =>
    simp only [TOk, hc, hs] at h ⊢
    rcases h with h | ⟨n, a, h1, h2, h3, h4, h5, h6, h7⟩
    · exact .inl h
    · exact .inr ⟨n, a, h1, h2, h3, h4, fun e => hw _ (by simp) (h5 e), fun e => ⟨(h6 e).1, hw _ (by simp) (h6 e).2⟩, h7⟩
  | event n => simpa only [TOk, hs] using h
  | callback n => exact h
  | gone => exact h

theorem without_put {s : Pool} {i : Nat} {t t' : Thread} (hi : s.threads[i]? = some t) (hr : t'.role = t.role ∨ t'.role = .gone) (r : Role) (hg : r ≠ .gone) (h : Without s r) : Without (s.put i t') r := by
  intro j u hu
  simp only [Pool.put, List.getElem?_set] at hu
  by_cases e : i = j
  · rw [if_pos e, if_pos (List.getElem?_eq_some_iff.1 hi).1] at hu
    have := Option.some.inj hu
    subst this
    rcases hr with hr | hr
    · rw [hr]; exact h i t hi
    · rw [hr]; exact Ne.symm hg
  · rw [if_neg e] at hu
    exact h j u hu

/-- A step that changes only its own goroutine. -/
theorem put_ok {s : Pool} (h : Inv s) {i : Nat} {t t' : Thread} (hi : s.threads[i]? = some t)
    (hr : t'.role = t.role ∨ t'.role = .gone ∧ t.role ≠ .forwarder ∧ t.role ≠ .committer)
    (hx : ∀ l, (l, true) ∈ t'.held → (l, true) ∈ t.held ∨ ∀ u ∈ s.threads, (l, true) ∉ u.held ∧ (l, false) ∉ u.held)
    (hy : ∀ l, (l, false) ∈ t'.held → (l, false) ∈ t.held ∨ ∀ u ∈ s.threads, (l, true) ∉ u.held)
    (ht : TOk (s.put i t') t') : Inv (s.put i t') := by
  refine rebuild h (new := []) hi (by simp [Pool.put]) hr (by simp) hx hy h.places ht (by simp) ?_
  intro j u _ hu hok
  exact tok_congr (s := s) rfl rfl rfl (fun r hg hw => without_put hi (by rcases hr with e | e; exacts [.inl e, .inr e.1]) r hg hw) hok

theorem ok_cons {al : A → Instr → Prop} {n : Nat} {a : A} {i : Instr} {is : List Instr} (h : Ok al n a (i :: is)) : al a i ∧ Ok al n (nx n a i) is := h.2

/-- Instructions that concern only the goroutine itself. -/
def own : Instr → Bool
  | .lock _ => true
  | .rlock _ => true
  | .unlock _ => true
  | .runlock _ => true
  | .acc _ _ _ => true
  | .waitEvents _ => true
  | .waitClient _ => true
  | .mayFail _ => true
  | _ => false

theorem own_ok {s s' : Pool} (h : Inv s) {i : Nat} {r : Role} {held : List (Lock × Bool)} {x : Instr} {is : List Instr} (hi : s.threads[i]? = some ⟨r, held, x :: is⟩) (hx : own x = true)
    (he : exec s i ⟨r, held, x :: is⟩ = some s') (n : Nat) (a : A) (ha : a.held = held) (ht : TOk (s.put i ⟨r, (nx n a x).held, is⟩) ⟨r, (nx n a x).held, is⟩) :
    Inv s' := by
  have er : ∀ {l l' : Lock} {b b' : Bool}, (l, b) ∈ held.erase (l', b') → (l, b) ∈ held := fun hm => List.mem_of_mem_erase hm
  cases x <;> simp only [own, Bool.false_eq_true] at hx <;> simp only [exec] at he
  case lock l =>
    split at he <;> simp only [Option.some.injEq, reduceCtorEq] at he
    rename_i hfree
    subst he
    simp only [nx, ha] at ht
    refine put_ok h hi (.inl rfl) ?_ ?_ ht
    · intro l' hl'
      simp only [List.mem_cons, Prod.mk.injEq, and_true] at hl'
      rcases hl' with rfl | hl'
      · exact .inr hfree
      · exact .inl hl'
    · intro l' hl'; simp at hl'; exact .inl hl'
  case rlock l =>
    split at he <;> simp only [Option.some.injEq, reduceCtorEq] at he
    rename_i hfree
    subst he
    simp only [nx, ha] at ht
    refine put_ok h hi (.inl rfl) ?_ ?_ ht
    · intro l' hl'; simp at hl'; exact .inl hl'
    · intro l' hl'
      simp only [List.mem_cons, Prod.mk.injEq, and_true] at hl'
      rcases hl' with rfl | hl'
      · exact .inr hfree
      · exact .inl hl'
  case unlock l =>
    simp only [Option.some.injEq] at he; subst he
    simp only [nx, ha] at ht
    exact put_ok h hi (.inl rfl) (fun _ hl => .inl (er hl)) (fun _ hl => .inl (er hl)) ht
  case runlock l =>
    simp only [Option.some.injEq] at he; subst he
    simp only [nx, ha] at ht
    exact put_ok h hi (.inl rfl) (fun _ hl => .inl (er hl)) (fun _ hl => .inl (er hl)) ht
  all_goals
    (try (split at he)) <;> simp only [Option.some.injEq, reduceCtorEq] at he
    subst he
    simp only [nx, ha] at ht
    exact put_ok h hi (.inl rfl) (fun _ hl => .inl hl) (fun _ hl => .inl hl) ht

theorem without_set {s s' : Pool} {i : Nat} {t t' : Thread} {new : List Thread} (hi : s.threads[i]? = some t) (hs : s'.threads = s.threads.set i t' ++ new) (hr : t'.role = t.role) {r : Role} (hg : r ≠ .gone)
    (hv : ∀ v ∈ new, v.role ≠ r) (h : Without s r) : Without s' r := by
  intro j u hu
  rw [hs] at hu
  by_cases hj : j < (s.threads.set i t').length
  · rw [List.getElem?_append_left hj] at hu
    exact without_put (s := s) (t' := t') hi (.inl hr) r hg h j u hu
  · rw [List.getElem?_append_right (by omega)] at hu
    exact hv u (List.mem_of_getElem? hu)

/-- Another goroutine than the one that does the step, if the step leaves the node of the commit loop and does not clear `txnContext`. -/
theorem tok_other {s s' : Pool} (h : Inv s) {i j : Nat} {t t' u : Thread} {new : List Thread} (hi : s.threads[i]? = some t) (hs : s'.threads = s.threads.set i t' ++ new) (hr : t'.role = t.role)
    (hj : j ≠ i) (hu : s.threads[j]? = some u) (hd : s'.deck = s.deck ∨ t.role = .forwarder) (hc : s'.current = s.current ∨ t.role = .committer) (hset : ∀ m, s.set m = true → s'.set m = true ∨ t.role = .committer)
    (hnew : ∀ v ∈ new, ∀ n, s.current = some n → (v.role = .event n → t.role = .forwarder ∧ s.deck = some n) ∧ (v.role = .callback n → t.role = .event n))
    (hpend : ∀ m, s'.set m = true → s.set m = true ∨ (Lock.produce m, true) ∈ t.held) (ok : TOk s u) : TOk s' u := by
  obtain ⟨r, held, rest⟩ := u
  cases r with
  | forwarder =>
    rcases hd with hd | hd
    · simpa only [TOk, hd] using ok
    · have h0 := (h.first j _ hu).1.1 rfl
      have h0' := (h.first i _ hi).1.1 hd
      exact absurd (h0.trans h0'.symm) hj
  | committer =>
    have hnc : t.role ≠ .committer := fun e => hj (((h.first j _ hu).2.1 rfl).trans ((h.first i _ hi).2.1 e).symm)
    have hc := hc.resolve_right hnc
    simp only [TOk, hc] at ok ⊢
    rcases ok with ok | ⟨n, b, h1, h2, h3, h4, h5, h6, h7⟩
    · exact .inl ok
    · refine .inr ⟨n, b, h1, h2, h3, h4, fun e => without_set hi hs hr (by simp) ?_ (h5 e), fun e => ⟨(h6 e).1, without_set hi hs hr (by simp) ?_ (h6 e).2⟩, fun e => (hset n (h7 e)).resolve_right hnc⟩
      · intro v hv e'
        exact h.deck_ne ((hnew v hv n h1).1 e').2 h1 rfl
      · intro v hv e'
        exact h5 (h6 e).1 i t hi ((hnew v hv n h1).2 e')
  | event n =>
    simp only [TOk] at ok ⊢
    obtain ⟨a, h1, h2, h3, h4, h5, h6⟩ := ok
    refine ⟨a, h1, h2, h3, h4, ?_, h6⟩
    rintro m is rfl
    have hf := h5 m is rfl
    cases hm : s'.set m with
    | false => rfl
    | true =>
      rcases hpend m hm with h' | h'
      · rw [hf] at h'; exact absurd h' (by simp)
      · have := h3.2.1
        simp only [alW] at this
        obtain ⟨rfl, hl⟩ := this
        rw [h1] at hl
        exact absurd hl (h.excl i j _ _ hi hu (Ne.symm hj) _ true h')
  | callback n => exact ok
  | gone => exact ok

/-- The next step of the forwarder. -/
theorem go_forwarder {s s' : Pool} (h : Inv s) {i : Nat} {held : List (Lock × Bool)} {rest : List Instr} (hi : s.threads[i]? = some ⟨.forwarder, held, rest⟩)
    (he : exec s i ⟨.forwarder, held, rest⟩ = some s') : Inv s' := by
  have hok := h.all i _ hi
  simp only [TOk] at hok
  rcases hok with ⟨_, h2, _⟩ | ⟨n, a, hd, ha, hm, ok, fin⟩
  · subst h2; simp [exec] at he
  cases rest with
  | nil => simp [exec] at he
  | cons x is =>
    obtain ⟨_, al, ok⟩ := ok
    by_cases ho : own x = true
    · refine own_ok h hi ho he n a ha (.inr ⟨n, nx n a x, hd, rfl, ?_, ok, fin⟩)
      cases x <;> simp_all [nx, own]
    · cases x <;> simp only [alF, own, not_true_eq_false] at al ho <;> simp only [exec] at he
      case grant m =>
        simp only [Option.some.injEq] at he
        subst he
        subst al
        refine rebuild h (t' := ⟨.forwarder, held, is⟩) (new := [⟨.event m, [], []⟩]) hi (by simp [Pool.spawn, Pool.put]) (.inl rfl) (by simp) (fun _ hl => .inl hl) (fun _ hl => .inl hl) h.places
          (.inr ⟨m, a, hd, ha, hm, ok, fin⟩) ?_ ?_
        · intro u hu
          rw [List.mem_singleton] at hu; subst hu
          exact ⟨⟨[], true, false, false, false⟩, rfl, rfl, trivial, rfl, by simp, by simp⟩
        · intro j u hj hu hok
          refine tok_other h (new := [⟨.event m, [], []⟩]) hi (t' := ⟨.forwarder, held, is⟩) (by simp [Pool.spawn, Pool.put]) rfl hj hu (.inr rfl) (.inl rfl) (fun _ h => .inl h) ?_ (fun _ h => .inl h) hok
          intro v hv n hn
          rw [List.mem_singleton] at hv; subst hv
          refine ⟨fun e => ⟨rfl, ?_⟩, fun e => by simp at e⟩
          simp only [Role.event.injEq] at e
          rw [hd, e]
      case enqueue m =>
        split at he <;> simp only [Option.some.injEq, reduceCtorEq] at he
        subst he
        obtain ⟨rfl, hh⟩ := al
        have his : is = [] := by
          cases is with
          | nil => rfl
          | cons y ys => exact absurd ok.1 (by simp [nx])
        subst his
        refine rebuild h (t' := ⟨.forwarder, held, []⟩) (new := []) hi (by simp [Pool.put]) (.inl rfl) (by simp) (fun _ hl => .inl hl) (fun _ hl => .inl hl) ?_ (.inl ⟨rfl, rfl, by rw [← ha]; exact hh⟩) (by simp) ?_
        · refine List.Perm.trans ?_ h.places
          simp only [Pool.put, hd, Option.toList_none, Option.toList_some, List.nil_append, List.append_assoc, List.singleton_append]
          exact List.perm_middle
        · intro j u hj hu hok
          exact tok_other h (new := []) hi (t' := ⟨.forwarder, held, []⟩) (by simp [Pool.put]) rfl hj hu (.inr rfl) (.inl rfl) (fun _ h => .inl h) (by simp) (fun _ h => .inl h) hok

/-- `txnContext` is set if it was not. -/
theorem ensure_ok {s : Pool} (h : Inv s) {i m : Nat} {r : Role} {held : List (Lock × Bool)} {is : List Instr} (hi : s.threads[i]? = some ⟨r, held, .ensure m :: is⟩)
    (h1 : s.set m = true → TOk (s.put i ⟨r, held, is⟩) ⟨r, held, is⟩) (h2 : s.set m = false → TOk (s.put i ⟨r, held, .setCtx m :: is⟩) ⟨r, held, .setCtx m :: is⟩) :
    Inv (s.put i ⟨r, held, if s.set m then is else .setCtx m :: is⟩) := by
  cases hs : s.set m with
  | true => exact put_ok h hi (.inl rfl) (fun _ hl => .inl hl) (fun _ hl => .inl hl) (h1 hs)
  | false => exact put_ok h hi (.inl rfl) (fun _ hl => .inl hl) (fun _ hl => .inl hl) (h2 hs)

theorem set_ok {s : Pool} (h : Inv s) {i m : Nat} {r : Role} {held : List (Lock × Bool)} {is : List Instr} (hi : s.threads[i]? = some ⟨r, held, .setCtx m :: is⟩) (hl : (Lock.produce m, true) ∈ held)
    (ht : TOk ({ s with set := fun k => if k = m then true else s.set k }.put i ⟨r, held, is⟩) ⟨r, held, is⟩) :
    Inv ({ s with set := fun k => if k = m then true else s.set k }.put i ⟨r, held, is⟩) := by
  refine rebuild h (t' := ⟨r, held, is⟩) (new := []) hi (by simp [Pool.put]) (.inl rfl) (by simp) (fun _ hl => .inl hl) (fun _ hl => .inl hl) h.places ht (by simp) ?_
  intro j u hj hu hok
  refine tok_other h (new := []) hi (t' := ⟨r, held, is⟩) (by simp [Pool.put]) rfl hj hu (.inl rfl) (.inl rfl) (fun k hk => .inl ?_) (by simp) (fun k hk => ?_) hok
  · simp [Pool.put, hk]
  · simp only [Pool.put] at hk
    split at hk
    · rename_i e; subst e; exact .inr hl
    · exact .inl hk

theorem produce_ok {s : Pool} (h : Inv s) {i m : Nat} {r : Role} {held : List (Lock × Bool)} {is : List Instr} (hi : s.threads[i]? = some ⟨r, held, .produce m :: is⟩)
    (hr : r = .event m ∨ r = .committer) (ht : TOk ((s.put i ⟨r, held, is⟩).spawn ⟨.callback m, [], [.acc m .bytes .atomic]⟩) ⟨r, held, is⟩) :
    Inv ((s.put i ⟨r, held, is⟩).spawn ⟨.callback m, [], [.acc m .bytes .atomic]⟩) := by
  refine rebuild h (t' := ⟨r, held, is⟩) (new := [⟨.callback m, [], [.acc m .bytes .atomic]⟩]) hi (by simp [Pool.put, Pool.spawn]) (.inl rfl) (by simp) (fun _ hl => .inl hl) (fun _ hl => .inl hl) h.places ht ?_ ?_
  · intro u hu
    rw [List.mem_singleton] at hu; subst hu
    exact ⟨rfl, .inr rfl⟩
  · intro j u hj hu hok
    rcases hr with rfl | rfl
    · refine tok_other h (new := [⟨.callback m, [], [.acc m .bytes .atomic]⟩]) hi (t' := ⟨.event m, held, is⟩) (by simp [Pool.put, Pool.spawn]) rfl hj hu (.inl rfl) (.inl rfl) (fun _ h => .inl h) ?_ (fun _ h => .inl h) hok
      intro v hv n hn
      rw [List.mem_singleton] at hv; subst hv
      exact ⟨fun e => by simp at e, fun e => by simpa using e⟩
    · obtain ⟨r, held', rest⟩ := u
      cases r with
      | committer => exact absurd (((h.first j _ hu).2.1 rfl).trans ((h.first i _ hi).2.1 rfl).symm) hj
      | _ => exact hok

/-- The next step of the goroutine of an event. -/
theorem go_event {s s' : Pool} (h : Inv s) {i n : Nat} {held : List (Lock × Bool)} {rest : List Instr} (hi : s.threads[i]? = some ⟨.event n, held, rest⟩)
    (he : exec s i ⟨.event n, held, rest⟩ = some s') : Inv s' := by
  have hok := h.all i _ hi
  simp only [TOk] at hok
  obtain ⟨a, ha, hm, ok, fin, pend, plain⟩ := hok
  cases rest with
  | nil => simp [exec] at he
  | cons x is =>
    have okx := ok
    obtain ⟨_, al, ok⟩ := ok
    simp only [List.tail_cons] at plain
    have hp1 : ∀ (s1 : Pool) m is', is = .setCtx m :: is' → s1.set m = false := fun s1 m is' e => absurd (by simp [e]) (plain m)
    have hp2 : ∀ m, .setCtx m ∉ is.tail := fun m hm => plain m (List.mem_of_mem_tail hm)
    by_cases ho : own x = true
    · refine own_ok h hi ho he n a ha ⟨nx n a x, rfl, ?_, ok, fin, hp1 _, hp2⟩
      cases x <;> simp_all [nx, own]
    · cases x <;> simp only [alW, own, not_true_eq_false] at al ho <;> simp only [exec, Option.some.injEq] at he
      case ensure m =>
        subst he
        refine ensure_ok h hi (fun _ => ⟨nx n a (.ensure m), ha, hm, ok, fin, hp1 _, hp2⟩) fun hs => ⟨a, ha, hm, ⟨hm, al, ok⟩, fin, ?_, plain⟩
        intro k is' e
        simp only [List.cons.injEq, Instr.setCtx.injEq] at e
        rw [← e.1]; exact hs
      case setCtx m =>
        subst he
        obtain ⟨rfl, hl⟩ := al
        exact set_ok h hi (by rw [← ha]; exact hl) ⟨nx m a (.setCtx m), ha, hm, ok, fin, hp1 _, hp2⟩
      case produce m =>
        subst he
        obtain ⟨rfl, hl⟩ := al
        exact produce_ok h hi (.inl rfl) ⟨a, ha, hm, ok, fin, hp1 _, hp2⟩

/-- The next step of the commit loop. -/
theorem go_committer {s s' : Pool} (h : Inv s) {i : Nat} {held : List (Lock × Bool)} {rest : List Instr} (hi : s.threads[i]? = some ⟨.committer, held, rest⟩)
    (he : exec s i ⟨.committer, held, rest⟩ = some s') : Inv s' := by
  have hok := h.all i _ hi
  simp only [TOk] at hok
  rcases hok with ⟨_, h2, _⟩ | ⟨n, a, hc, ha, hm, ok, hdone, hfl, hset⟩
  · subst h2; simp [exec] at he
  cases rest with
  | nil => simp [exec] at he
  | cons x is =>
    obtain ⟨_, al, ok⟩ := ok
    have hother : ∀ (s1 : Pool) (t' : Thread), s1.threads = s.threads.set i t' → t'.role = .committer → s1.deck = s.deck → (∀ m, s1.set m = true → s.set m = true) →
        ∀ (j : Nat) (u : Thread), j ≠ i → s.threads[j]? = some u → TOk s u → TOk s1 u := by
      intro s1 t' e1 e2 e3 e4 j u hj hu hok
      exact tok_other h (new := []) hi (t' := t') (by simpa using e1) e2 hj hu (.inl e3) (.inr rfl) (fun _ _ => .inr rfl) (by simp) (fun m h => .inl (e4 m h)) hok
    by_cases ho : own x = true
    · refine own_ok h hi ho he n a ha ?_
      have hw : ∀ r, r ≠ .gone → Without s r → Without (s.put i ⟨.committer, (nx n a x).held, is⟩) r := fun r hg hw => without_put (t' := ⟨.committer, (nx n a x).held, is⟩) hi (.inl rfl) r hg hw
      refine .inr ⟨n, nx n a x, hc, rfl, ?_, ok, ?_, ?_, ?_⟩
      · cases x <;> simp_all [nx, own]
      · intro e
        cases x
        case waitEvents m =>
          simp only [alC] at al
          subst al
          simp only [exec] at he
          split at he
          on_goal 2 => exact absurd he (by simp)
          rename_i hall
          exact hw _ (by simp) fun j u hu => hall u (List.mem_of_getElem? hu)
        all_goals exact hw _ (by simp) (hdone e)
      · intro e
        cases x
        case waitClient m =>
          simp only [alC] at al
          obtain ⟨rfl, hd⟩ := al
          simp only [exec] at he
          split at he
          on_goal 2 => exact absurd he (by simp)
          rename_i hall
          exact ⟨hd, hw _ (by simp) fun j u hu => hall u (List.mem_of_getElem? hu)⟩
        case waitEvents m => exact ⟨rfl, hw _ (by simp) (hfl e).2⟩
        all_goals exact ⟨(hfl e).1, hw _ (by simp) (hfl e).2⟩
      · intro e
        cases x <;> simp only [own, Bool.false_eq_true] at ho <;> exact hset e
    · have hw : ∀ r (t' : Thread), t'.role = .committer → r ≠ .gone → Without s r → Without (s.put i t') r := fun r t' e hg hw => without_put hi (.inl e) r hg hw
      cases x <;> simp only [alC, own, not_true_eq_false] at al ho <;> simp only [exec, Option.some.injEq] at he
      case ensure m =>
        subst he
        refine ensure_ok h hi (fun hs => .inr ⟨n, nx n a (.ensure m), hc, ha, hm, ok, fun e => hw _ _ rfl (by simp) (hdone e), fun e => ⟨(hfl e).1, hw _ _ rfl (by simp) (hfl e).2⟩, ?_⟩)
          fun hs => .inr ⟨n, a, hc, ha, hm, ⟨hm, al, ok⟩, fun e => hw _ _ rfl (by simp) (hdone e), fun e => ⟨(hfl e).1, hw _ _ rfl (by simp) (hfl e).2⟩, hset⟩
        intro e
        simp only [nx, Bool.or_eq_true, decide_eq_true_eq] at e
        rcases e with e | rfl
        · exact hset e
        · exact hs
      case setCtx m =>
        subst he
        refine set_ok h hi (by rw [← ha]; exact al) (.inr ⟨n, nx n a (.setCtx m), hc, ha, hm, ok, fun e => hw _ _ rfl (by simp) (hdone e), fun e => ⟨(hfl e).1, hw _ _ rfl (by simp) (hfl e).2⟩, ?_⟩)
        intro e
        simp only [nx, Bool.or_eq_true, decide_eq_true_eq] at e
        simp only [Pool.put]
        split
        · rfl
        · rename_i hne
          exact hset (e.resolve_right fun e => hne e.symm)
      case clearCtx m =>
        subst he
        obtain ⟨rfl, hd⟩ := al
        refine rebuild h (t' := ⟨.committer, held, is⟩) (new := []) hi (by simp [Pool.put]) (.inl rfl) (by simp) (fun _ hl => .inl hl) (fun _ hl => .inl hl) h.places
          (.inr ⟨m, nx m a (.clearCtx m), hc, ha, hm, ok, fun e => hw _ _ rfl (by simp) (hdone e), fun e => ⟨(hfl e).1, hw _ _ rfl (by simp) (hfl e).2⟩, ?_⟩) (by simp) ?_
        · intro e; simp [nx] at e
        · refine hother _ ⟨.committer, held, is⟩ rfl rfl rfl ?_
          intro k hk
          simp only [Pool.put] at hk
          split at hk
          · exact absurd hk (by simp)
          · exact hk
      case produce m =>
        subst he
        refine produce_ok h hi (.inr rfl) (.inr ⟨n, a, hc, ha, hm, ok, fun e => without_set hi (new := [⟨.callback m, [], [.acc m .bytes .atomic]⟩]) (t' := ⟨.committer, held, is⟩) rfl rfl (by simp) (by simp) (hdone e),
          fun e => ⟨(hfl e).1, without_set hi (new := [⟨.callback m, [], [.acc m .bytes .atomic]⟩]) (t' := ⟨.committer, held, is⟩) rfl rfl (by simp) ?_ (hfl e).2⟩, hset⟩)
        intro v hv e'
        rw [List.mem_singleton] at hv; subst hv
        simp only [Role.callback.injEq] at e'
        rw [al e'] at e; exact absurd e (by simp)
      case giveBack m =>
        subst he
        obtain ⟨rfl, hh⟩ := al
        have his : is = [] := by
          cases is with
          | nil => rfl
          | cons y ys => exact absurd ok.1 (by simp [nx])
        subst his
        refine rebuild h (t' := ⟨.committer, held, []⟩) (new := []) hi (by simp [Pool.put]) (.inl rfl) (by simp) (fun _ hl => .inl hl) (fun _ hl => .inl hl) ?_ (.inl ⟨rfl, rfl, by rw [← ha]; exact hh⟩) (by simp)
          (hother _ ⟨.committer, held, []⟩ rfl rfl rfl fun _ h => h)
        refine List.Perm.trans ?_ h.places
        simp only [Pool.put, hc, Option.toList_none, Option.toList_some, List.append_nil, List.append_assoc, List.singleton_append]
        refine List.Perm.append_left _ (List.Perm.append_left _ ?_)
        exact List.perm_middle
      case lose m =>
        subst he
        obtain ⟨rfl, hh⟩ := al
        have his : is = [] := by
          cases is with
          | nil => rfl
          | cons y ys => exact absurd ok.1 (by simp [nx])
        subst his
        refine rebuild h (t' := ⟨.committer, held, []⟩) (new := []) hi (by simp [Pool.put]) (.inl rfl) (by simp) (fun _ hl => .inl hl) (fun _ hl => .inl hl) ?_ (.inl ⟨rfl, rfl, by rw [← ha]; exact hh⟩) (by simp)
          (hother _ ⟨.committer, held, []⟩ rfl rfl rfl fun _ h => h)
        refine List.Perm.trans ?_ h.places
        simp only [Pool.put, hc, Option.toList_none, Option.toList_some, List.append_nil, List.append_assoc, List.singleton_append]
        refine List.Perm.append_left _ (List.Perm.append_left _ ?_)
        have : (s.free ++ (s.lost ++ [m])) = (s.free ++ s.lost) ++ [m] := by simp
        rw [this]
        exact List.perm_append_singleton _ _

theorem inv_step {s s' : Pool} {a : Act} (h : Inv s) (hs : step s a = some s') : Inv s' := by
  cases a with
  | go i =>
    simp only [step] at hs
    split at hs
    · rename_i t hi
      obtain ⟨r, held, rest⟩ := t
      cases r with
      | forwarder => exact go_forwarder h hi hs
      | committer => exact go_committer h hi hs
      | event n => exact go_event h hi hs
      | callback n =>
        obtain ⟨h1, h2⟩ := h.all i _ hi
        simp only at h1 h2
        subst h1
        rcases h2 with rfl | rfl
        · simp [exec] at hs
        · simp only [exec, Option.some.injEq] at hs
          subst hs
          exact put_ok h hi (.inl rfl) (fun _ hl => .inl hl) (fun _ hl => .inl hl) ⟨rfl, .inl rfl⟩
      | gone =>
        obtain ⟨h1, h2⟩ := h.all i _ hi
        simp only at h2
        subst h2
        simp [exec] at hs
    · exact absurd hs (by simp)
  | turn x =>
    simp only [step] at hs
    split at hs <;> simp only [Option.some.injEq, reduceCtorEq] at hs
    rename_i n r held hd hi
    subst hs
    have hr : r = .forwarder := (h.first 0 _ hi).1.2 rfl
    subst hr
    have hok := h.all 0 _ hi
    simp only [TOk, hd, reduceCtorEq, false_and, false_or, Option.some.injEq] at hok
    obtain ⟨_, a, _, h1, _, _, h2⟩ := hok
    have hh : held = [] := by rw [← h1]; exact h2
    subst hh
    have := turn_ok n x
    exact put_ok h hi (.inl rfl) (fun _ hl => .inl hl) (fun _ hl => .inl hl) (.inr ⟨n, ⟨[], true, false, false, false⟩, hd, rfl, rfl, this.1, this.2⟩)
  | takeFree =>
    simp only [step] at hs
    split at hs <;> simp only [Option.some.injEq, reduceCtorEq] at hs
    rename_i n fs r held hd hf hi
    subst hs
    have hr : r = .forwarder := (h.first 0 _ hi).1.2 rfl
    subst hr
    have hok := h.all 0 _ hi
    simp only [TOk, hd, reduceCtorEq, false_and, exists_const, exists_false, or_false, true_and] at hok
    have hset : s.threads.set 0 ⟨.forwarder, held, []⟩ = s.threads := by
      apply List.ext_getElem?
      intro j
      rw [List.getElem?_set]
      split
      · rename_i e; subst e
        rw [if_pos (List.getElem?_eq_some_iff.1 hi).1, hi]
      · rfl
    refine rebuild h (t' := ⟨.forwarder, held, []⟩) (new := []) hi (by simp [hset]) (.inl rfl) (by simp) (fun _ hl => .inl hl) (fun _ hl => .inl hl) ?_
      (.inr ⟨n, ⟨[], true, false, false, false⟩, rfl, hok.symm, rfl, trivial, rfl⟩) (by simp) ?_
    · refine List.Perm.trans ?_ h.places
      simp only [hd, hf, Option.toList_none, Option.toList_some, List.nil_append, List.append_assoc, List.singleton_append]
      refine List.Perm.symm ?_
      have e1 : s.queue ++ (s.current.toList ++ (n :: fs ++ s.lost)) = (s.queue ++ s.current.toList) ++ n :: (fs ++ s.lost) := by simp
      have e2 : n :: (s.queue ++ (s.current.toList ++ (fs ++ s.lost))) = n :: ((s.queue ++ s.current.toList) ++ (fs ++ s.lost)) := by simp
      rw [e1, List.cons_append, e2]
      exact List.perm_middle
    · intro j u hj hu hok
      exact tok_other h (new := []) hi (t' := ⟨.forwarder, held, []⟩) (by simp [hset]) rfl hj hu (.inr rfl) (.inl rfl) (fun _ h => .inl h) (by simp) (fun _ h => .inl h) hok
  | takeQueued p =>
    simp only [step] at hs
    split at hs
    · rename_i n q r held hd hf hi
      split at hs <;> simp only [Option.some.injEq, reduceCtorEq] at hs
      rename_i htp
      subst hs
      have hr : r = .committer := (h.first 1 _ hi).2.2 rfl
      subst hr
      have hok := h.all 1 _ hi
      simp only [TOk, hd, reduceCtorEq, false_and, exists_const, exists_false, or_false, true_and] at hok
      subst hok
      refine rebuild h (t' := ⟨.committer, [], commit n (s.others n) p⟩) (new := []) hi (by simp [Pool.put]) (.inl rfl) (by simp) (fun _ hl => .inl hl) (fun _ hl => .inl hl) ?_
        (.inr ⟨n, ⟨[], true, false, false, false⟩, rfl, rfl, rfl, commit_ok n _ p (by simp [Pool.others]) htp, by simp, by simp, by simp⟩) (by simp) ?_
      · refine List.Perm.trans ?_ h.places
        simp only [Pool.put, hd, hf, Option.toList_none, Option.toList_some, List.append_nil, List.append_assoc, List.singleton_append]
        refine List.Perm.append_left _ ?_
        exact List.perm_middle
      · intro j u hj hu hok
        exact tok_other h (new := []) hi (t' := ⟨.committer, [], commit n (s.others n) p⟩) (by simp [Pool.put]) rfl hj hu (.inl rfl) (.inr rfl) (fun _ h => .inl h) (by simp) (fun _ h => .inl h) hok
    · exact absurd hs (by simp)
  | fail =>
    simp only [step] at hs
    split at hs <;> simp only [Option.some.injEq, reduceCtorEq] at hs
    rename_i r held m is hi
    subst hs
    have hr : r = .committer := (h.first 1 _ hi).2.2 rfl
    subst hr
    have hok := h.all 1 _ hi
    simp only [TOk, reduceCtorEq, false_and, and_false, false_or] at hok
    obtain ⟨n, a, hc, ha, hm, ok, hdone, hfl, hset⟩ := hok
    obtain ⟨_, al, _⟩ := ok
    simp only [alC] at al
    obtain ⟨rfl, hh⟩ := al
    have hw : ∀ r, r ≠ .gone → Without s r → Without (s.put 1 ⟨.committer, held, [.unlock (.commit m), .lose m]⟩) r :=
      fun r hg hw => without_put (t' := ⟨.committer, held, [.unlock (.commit m), .lose m]⟩) hi (.inl rfl) r hg hw
    refine put_ok h hi (.inl rfl) (fun _ hl => .inl hl) (fun _ hl => .inl hl) (.inr ⟨m, a, hc, ha, hm, ⟨hm, trivial, hm, ⟨rfl, by simp [nx, hh]⟩, trivial⟩,
      fun e => hw _ (by simp) (hdone e), fun e => ⟨(hfl e).1, hw _ (by simp) (hfl e).2⟩, hset⟩)
  | produce i owned =>
    simp only [step] at hs
    split at hs <;> simp only [Option.some.injEq, reduceCtorEq] at hs
    rename_i n held hi
    subst hs
    obtain ⟨a, h1, h2, h3, h4, h5, h6⟩ := h.all i _ hi
    have hp := produceRecord_ok n owned a h4 h2
    refine put_ok h hi (.inl rfl) (fun _ hl => .inl hl) (fun _ hl => .inl hl) ⟨a, h1, h2, hp.1, hp.2, ?_, ?_⟩
    · intro m is e
      simp [produceRecord, within] at e
    · intro m
      cases owned <;> simp [produceRecord, within, send]
  | finish i =>
    simp only [step] at hs
    split at hs <;> simp only [Option.some.injEq, reduceCtorEq] at hs
    all_goals
      rename_i hi
      subst hs
      exact put_ok h hi (.inr ⟨rfl, by simp, by simp⟩) (by simp) (by simp) ⟨rfl, rfl⟩

theorem inv_init (size cap : Nat) (h : 0 < size) : Inv (init size cap) := by
  refine ⟨by simp [init], ?_, ?_, ?_, ?_⟩
  · intro i t hi
    rcases i with _ | _ | i <;> simp [init] at hi <;> subst hi <;> simp
  · intro i j t u hi hj _ l b hl
    rcases i with _ | _ | i <;> simp [init] at hi <;> subst hi <;> simp at hl
  · obtain ⟨k, rfl⟩ : ∃ k, size = k + 1 := ⟨size - 1, by omega⟩
    simp [init, List.range_succ_eq_map]
  · intro i t hi
    rcases i with _ | _ | i <;> simp [init] at hi <;> subst hi
    · exact .inr ⟨0, ⟨[], true, false, false, false⟩, rfl, rfl, rfl, trivial, rfl⟩
    · exact .inl ⟨rfl, rfl, rfl⟩

theorem inv_reach {size cap : Nat} {s : Pool} (hp : 0 < size) (h : Reach size cap s) : Inv s := by
  obtain ⟨as, h⟩ := h
  have : ∀ as (s0 : Pool), Inv s0 → run s0 as = some s → Inv s := by
    intro as
    induction as with
    | nil => intro s0 h0 h; simp only [run, Option.some.injEq] at h; subst h; exact h0
    | cons a as ih =>
      intro s0 h0 h
      simp only [run, Option.bind_eq_some_iff] at h
      obtain ⟨s1, h1, h2⟩ := h
      exact ih s1 (inv_step h0 h1) h2
  exact this as _ (inv_init size cap hp) h

end Verif.Nodes
