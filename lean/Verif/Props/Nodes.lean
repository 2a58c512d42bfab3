import Verif.Nodes.Proofs
/-
C105. The fields of a producer node that are handed over with the node are never accessed by two goroutines at the same time.
-/
namespace Verif.Nodes

/-! ### Specification -/

/-- The access that an instruction is. -/
def accesses : Instr → Option (Nat × Field × Acc)
  | .acc n f a => some (n, f, a)
  | .ensure n => some (n, .ctx, .read)
  | .setCtx n => some (n, .ctx, .write)
  | .clearCtx n => some (n, .ctx, .write)
  | _ => none

/-- Goroutine `i` with role `r` is about to access field `f` of node `n` in way `a`. -/
def AboutTo (s : Pool) (i : Nat) (r : Role) (n : Nat) (f : Field) (a : Acc) : Prop :=
  ∃ held x is, s.threads[i]? = some ⟨r, held, x :: is⟩ ∧ accesses x = some (n, f, a)

/-- A data race, as in `Verif.Races.Race`: two goroutines can access the field next, one of them writes, and they do not both use atomic operations. -/
def Race (s : Pool) (r q : Role) (n : Nat) (f : Field) : Prop :=
  ∃ i j a b, i ≠ j ∧ AboutTo s i r n f a ∧ AboutTo s j q n f b ∧ (a ≠ .read ∨ b ≠ .read) ∧ (a ≠ .atomic ∨ b ≠ .atomic)

/-- What a goroutine with role `r` and locks `held` has if it is about to access a field. -/
def Has (s : Pool) (held : List (Lock × Bool)) (n : Nat) (k : Acc) : Role → Field → Prop
  | .forwarder, .events => s.deck = some n
  | .forwarder, .first => s.deck = some n
  | .forwarder, .parts => s.deck = some n ∧ (Lock.part n, true) ∈ held
  | .forwarder, .produced => s.deck = some n ∧ k = .atomic
  | .event m, .produced => m = n ∧ (Lock.produce n, true) ∈ held
  | .event m, .records => m = n ∧ (Lock.produce n, true) ∈ held
  | .event m, .ctx => m = n ∧ (Lock.produce n, true) ∈ held ∧ (k = .read ∨ s.set n = false)
  | .committer, .ctx => (Lock.produce n, true) ∈ held ∨ s.current = some n ∧ (k = .read ∧ s.set n = true ∨ Without s (.event n))
  | .committer, .records => (Lock.produce n, true) ∈ held ∨ s.current = some n ∧ Without s (.event n)
  | .committer, .produced => s.current = some n ∧ ((Lock.produce n, true) ∈ held ∨ Without s (.event n))
  | .committer, .bytes => s.current = some n ∧ Without s (.callback n)
  | .committer, .events => s.current = some n
  | .committer, .first => s.current = some n
  | .committer, .parts => s.current = some n ∨ k = .read ∧ (Lock.part n, false) ∈ held
  | .callback m, .bytes => m = n ∧ k = .atomic
  | _, _ => False

theorem about_has {s : Pool} (h : Inv s) {i : Nat} {r : Role} {n : Nat} {f : Field} {k : Acc} (ha : AboutTo s i r n f k) :
    ∃ t, s.threads[i]? = some t ∧ t.role = r ∧ Has s t.held n k r f := by
  obtain ⟨held, x, is, hi, hx⟩ := ha
  refine ⟨_, hi, rfl, ?_⟩
  have hok := h.all i _ hi
  cases r with
  | forwarder =>
    simp only [TOk, reduceCtorEq, false_and, and_false, false_or] at hok
    obtain ⟨m, a, hd, rfl, _, ⟨_, al, _⟩, _⟩ := hok
    cases x with
    | acc m' f' k' =>
      simp only [accesses, Option.some.injEq, Prod.mk.injEq] at hx
      simp only [alF] at al
      obtain ⟨rfl, rfl, rfl⟩ := hx
      obtain ⟨rfl, al⟩ := al
      cases f' <;> first | exact False.elim al | exact hd | exact ⟨hd, al⟩
    | _ => simp [accesses, alF] at hx al
  | event m =>
    simp only [TOk] at hok
    obtain ⟨a, rfl, _, ⟨_, al, _⟩, _, pend, _⟩ := hok
    cases x with
    | acc m' f' k' =>
      simp only [accesses, Option.some.injEq, Prod.mk.injEq] at hx
      simp only [alW] at al
      obtain ⟨rfl, rfl, rfl⟩ := hx
      obtain ⟨rfl, hl, al⟩ := al
      cases f' <;> first | exact False.elim al | exact ⟨rfl, hl⟩ | exact ⟨rfl, hl, .inl al⟩
    | ensure m' =>
      simp only [accesses, Option.some.injEq, Prod.mk.injEq] at hx
      obtain ⟨rfl, rfl, rfl⟩ := hx
      obtain ⟨rfl, hl⟩ := al
      exact ⟨rfl, hl, .inl rfl⟩
    | setCtx m' =>
      simp only [accesses, Option.some.injEq, Prod.mk.injEq] at hx
      obtain ⟨rfl, rfl, rfl⟩ := hx
      obtain ⟨rfl, hl⟩ := al
      exact ⟨rfl, hl, .inr (pend _ _ rfl)⟩
    | _ => simp [accesses, alW] at hx al
  | committer =>
    simp only [TOk, reduceCtorEq, false_and, and_false, false_or] at hok
    obtain ⟨m, a, hc, rfl, _, ⟨_, al, _⟩, hdone, hfl, hset⟩ := hok
    cases x with
    | acc m' f' k' =>
      simp only [accesses, Option.some.injEq, Prod.mk.injEq] at hx
      obtain ⟨rfl, rfl, rfl⟩ := hx
      cases f' <;> simp only [alC] at al
      · obtain ⟨rfl, al | ⟨rfl, al | al⟩⟩ := al
        · exact .inl al
        · exact .inr ⟨hc, .inl ⟨rfl, hset al⟩⟩
        · exact .inr ⟨hc, .inr (hdone al)⟩
      · obtain al | ⟨rfl, al⟩ := al
        · exact .inl al
        · exact .inr ⟨hc, hdone al⟩
      · obtain ⟨rfl, al | al⟩ := al
        · exact ⟨hc, .inl al⟩
        · exact ⟨hc, .inr (hdone al)⟩
      · obtain ⟨rfl, al⟩ := al
        exact ⟨hc, (hfl al).2⟩
      · subst al; exact hc
      · obtain rfl | al := al
        · exact .inl hc
        · exact .inr al
      · subst al; exact hc
    | ensure m' =>
      simp only [accesses, Option.some.injEq, Prod.mk.injEq] at hx
      obtain ⟨rfl, rfl, rfl⟩ := hx
      exact .inl al
    | setCtx m' =>
      simp only [accesses, Option.some.injEq, Prod.mk.injEq] at hx
      obtain ⟨rfl, rfl, rfl⟩ := hx
      exact .inl al
    | clearCtx m' =>
      simp only [accesses, Option.some.injEq, Prod.mk.injEq] at hx
      obtain ⟨rfl, rfl, rfl⟩ := hx
      obtain ⟨rfl, al⟩ := al
      exact .inr ⟨hc, .inr (hdone al)⟩
    | _ => simp [accesses] at hx
  | callback m =>
    simp only [TOk] at hok
    obtain ⟨_, hok | hok⟩ := hok
    · exact absurd hok (by simp)
    · simp only [List.cons.injEq] at hok
      obtain ⟨rfl, rfl⟩ := hok
      simp only [accesses, Option.some.injEq, Prod.mk.injEq] at hx
      obtain ⟨rfl, rfl, rfl⟩ := hx
      exact ⟨rfl, rfl⟩
  | gone =>
    simp only [TOk, reduceCtorEq, and_false] at hok

/-- **C105**: the only data race of the fields of the producer nodes is the one of `produceCnt` between the forwarder, which reads the counter of the node on deck with an atomic operation, and an event that produces a record (C92).
For any size of the pool, any events, any records and any interleaving, with failed commits too. -/
theorem C105_only_race {size cap : Nat} (hp : 0 < size) {s : Pool} (h : Reach size cap s) {r q : Role} {n : Nat} {f : Field} (hr : Race s r q n f) :
    f = .produced ∧ s.deck = some n ∧ (r = .forwarder ∧ q = .event n ∨ r = .event n ∧ q = .forwarder) := by
  have inv := inv_reach hp h
  obtain ⟨i, j, a, b, hij, h1, h2, h3, h4⟩ := hr
  obtain ⟨t, ht, htr, p1⟩ := about_has inv h1
  obtain ⟨u, hu, hur, p2⟩ := about_has inv h2
  have lock : ∀ l b, (l, true) ∈ t.held → (l, b) ∉ u.held := fun l b => inv.excl i j t u ht hu hij l b
  have lock' : ∀ l b, (l, true) ∈ u.held → (l, b) ∉ t.held := fun l b => inv.excl j i u t hu ht (Ne.symm hij) l b
  have deck : ∀ m, s.deck = some m → s.current = some m → False := fun m e1 e2 => inv.deck_ne e1 e2 rfl
  have sameF : r = .forwarder → q = .forwarder → False := fun e1 e2 => hij (((inv.first i t ht).1.1 (htr.trans e1)).trans ((inv.first j u hu).1.1 (hur.trans e2)).symm)
  have sameC : r = .committer → q = .committer → False := fun e1 e2 => hij (((inv.first i t ht).2.1 (htr.trans e1)).trans ((inv.first j u hu).2.1 (hur.trans e2)).symm)
  have noEv : r = .event n → Without s (.event n) → False := fun e w => w i t ht (htr.trans e)
  have noEv' : q = .event n → Without s (.event n) → False := fun e w => w j u hu (hur.trans e)
  have noCb : r = .callback n → Without s (.callback n) → False := fun e w => w i t ht (htr.trans e)
  have noCb' : q = .callback n → Without s (.callback n) → False := fun e w => w j u hu (hur.trans e)
  have evev : ∀ {m k : Nat}, m = n ∧ (Lock.produce n, true) ∈ t.held → k = n ∧ (Lock.produce n, true) ∈ u.held → False := fun x y => lock _ _ x.2 y.2
  cases r with
  | forwarder => cases q with
    | forwarder => exact (sameF rfl rfl).elim
    | committer => cases f with
      | produced => exact (deck n p1.1 p2.1).elim
      | events => exact (deck n p1 p2).elim
      | first => exact (deck n p1 p2).elim
      | parts =>
        rcases p2 with p2 | p2
        · exact (deck n p1.1 p2).elim
        · exact (lock _ _ p1.2 p2.2).elim
      | _ => exact p1.elim
    | event m => cases f with
      | produced =>
        obtain ⟨rfl, _⟩ := p2
        exact ⟨rfl, p1.1, .inl ⟨rfl, rfl⟩⟩
      | events => exact p2.elim
      | first => exact p2.elim
      | parts => exact p2.elim
      | _ => exact p1.elim
    | callback m => cases f with
      | bytes => exact p1.elim
      | _ => exact p2.elim
    | gone => exact p2.elim
  | committer => cases q with
    | forwarder => cases f with
      | produced => exact (deck n p2.1 p1.1).elim
      | events => exact (deck n p2 p1).elim
      | first => exact (deck n p2 p1).elim
      | parts =>
        rcases p1 with p1 | p1
        · exact (deck n p2.1 p1).elim
        · exact (lock' _ _ p2.2 p1.2).elim
      | _ => exact p2.elim
    | committer => exact (sameC rfl rfl).elim
    | event m => cases f with
      | ctx =>
        obtain ⟨rfl, l2, p2⟩ := p2
        rcases p1 with l1 | ⟨_, ⟨rfl, hs⟩ | w⟩
        · exact (lock _ _ l1 l2).elim
        · rcases p2 with rfl | p2
          · simp at h3
          · rw [hs] at p2; exact absurd p2 (by simp)
        · exact (noEv' rfl w).elim
      | records =>
        obtain ⟨rfl, l2⟩ := p2
        rcases p1 with l1 | ⟨_, w⟩
        · exact (lock _ _ l1 l2).elim
        · exact (noEv' rfl w).elim
      | produced =>
        obtain ⟨rfl, l2⟩ := p2
        rcases p1 with ⟨_, l1 | w⟩
        · exact (lock _ _ l1 l2).elim
        · exact (noEv' rfl w).elim
      | _ => exact p2.elim
    | callback m => cases f with
      | bytes =>
        obtain ⟨rfl, _⟩ := p2
        exact (noCb' rfl p1.2).elim
      | _ => exact p2.elim
    | gone => exact p2.elim
  | event m => cases q with
    | forwarder => cases f with
      | produced =>
        obtain ⟨rfl, _⟩ := p1
        exact ⟨rfl, p2.1, .inr ⟨rfl, rfl⟩⟩
      | ctx => exact p2.elim
      | records => exact p2.elim
      | _ => exact p1.elim
    | committer => cases f with
      | ctx =>
        obtain ⟨rfl, l1, p1⟩ := p1
        rcases p2 with l2 | ⟨_, ⟨rfl, hs⟩ | w⟩
        · exact (lock _ _ l1 l2).elim
        · rcases p1 with rfl | p1
          · simp at h3
          · rw [hs] at p1; exact absurd p1 (by simp)
        · exact (noEv rfl w).elim
      | records =>
        obtain ⟨rfl, l1⟩ := p1
        rcases p2 with l2 | ⟨_, w⟩
        · exact (lock _ _ l1 l2).elim
        · exact (noEv rfl w).elim
      | produced =>
        obtain ⟨rfl, l1⟩ := p1
        rcases p2 with ⟨_, l2 | w⟩
        · exact (lock _ _ l1 l2).elim
        · exact (noEv rfl w).elim
      | _ => exact p1.elim
    | event k => cases f with
      | ctx => exact (lock _ _ p1.2.1 p2.2.1).elim
      | records => exact (lock _ _ p1.2 p2.2).elim
      | produced => exact (lock _ _ p1.2 p2.2).elim
      | _ => exact p1.elim
    | callback k => cases f with
      | bytes => exact p1.elim
      | _ => exact p2.elim
    | gone => exact p2.elim
  | callback m => cases q with
    | forwarder => cases f with
      | bytes => exact p2.elim
      | _ => exact p1.elim
    | committer => cases f with
      | bytes =>
        obtain ⟨rfl, _⟩ := p1
        exact (noCb rfl p2.2).elim
      | _ => exact p1.elim
    | event k => cases f with
      | bytes => exact p2.elim
      | _ => exact p1.elim
    | callback k => cases f with
      | bytes =>
        rw [p1.2, p2.2] at h4
        simp at h4
      | _ => exact p1.elim
    | gone => exact p2.elim
  | gone => exact p1.elim

/-- **C105**: every node is in exactly one place: on deck, in the queue of commits, with the commit loop, free, or lost with a failed commit. -/
theorem C105_one_place {size cap : Nat} (hp : 0 < size) {s : Pool} (h : Reach size cap s) {n : Nat} (hn : n < s.size) :
    (s.deck.toList ++ s.queue ++ s.current.toList ++ s.free ++ s.lost).count n = 1 := by
  have inv := inv_reach hp h
  rw [inv.places.count_eq]
  rw [List.nodup_range.count, if_pos (List.mem_range.2 hn)]

/-- **C105**: when the commit loop takes away `txnContext`, all events of the node are finished; when it reads or resets the number of bytes, all callbacks of the client have returned too. -/
theorem C105_quiet {size cap : Nat} (hp : 0 < size) {s : Pool} (h : Reach size cap s) {t : Thread} (ht : s.threads[1]? = some t) {n : Nat} {is : List Instr} :
    (t.rest = .clearCtx n :: is → ∀ u ∈ s.threads, u.role ≠ .event n) ∧
    (∀ a, t.rest = .acc n .bytes a :: is → ∀ u ∈ s.threads, u.role ≠ .event n ∧ u.role ≠ .callback n) := by
  have inv := inv_reach hp h
  have hr := (inv.first 1 t ht).2.2 rfl
  have hok := inv.all 1 t ht
  obtain ⟨r, held, rest⟩ := t
  simp only at hr; subst hr
  simp only [TOk] at hok
  constructor
  · intro e
    simp only at e; subst e
    simp only [reduceCtorEq, false_and, and_false, false_or] at hok
    obtain ⟨m, a, hc, _, _, ⟨_, al, _⟩, hdone, hfl, hset⟩ := hok
    simp only [alC] at al
    obtain ⟨rfl, al⟩ := al
    intro u hu
    obtain ⟨j, hj⟩ := List.getElem?_of_mem hu
    exact hdone al j u hj
  · intro k e
    simp only at e; subst e
    simp only [reduceCtorEq, false_and, and_false, false_or] at hok
    obtain ⟨m, a, hc, _, _, ⟨_, al, _⟩, hdone, hfl, hset⟩ := hok
    simp only [alC] at al
    obtain ⟨rfl, al⟩ := al
    intro u hu
    obtain ⟨j, hj⟩ := List.getElem?_of_mem hu
    exact ⟨hdone (hfl al).1 j u hj, (hfl al).2 j u hj⟩

/-- Two nodes: an event of node 0 which produces a record and ends; the node goes to the queue, node 1 on deck. -/
def exStart : List Act :=
  [.turn (.event true (some (false, true)))] ++ List.replicate 17 (.go 0) ++ [.produce 2 true] ++ List.replicate 8 (.go 2) ++ [.takeFree]

/-- Node 0 is committed up to the place where its counters are reset; meanwhile an event is added to node 1, and it is about to produce. -/
def exCommit : List Act :=
  [.takeQueued ⟨0, [true], [[(1, none)]]⟩] ++ List.replicate 16 (.go 1) ++ [.turn (.event true none)] ++ List.replicate 11 (.go 0) ++ [.finish 2, .go 3, .finish 3, .go 4, .finish 4]

/-- The race of `produceCnt` happens (C92), while the commit loop is about to reset the number of bytes of the other node. -/
def exRace : List Act := exStart ++ exCommit ++ List.replicate 24 (.go 1) ++ [.produce 5 true, .go 5, .go 5, .go 0]

/-- A computed state is reachable. -/
theorem of_any {size cap : Nat} {as : List Act} {P : Pool → Bool} (h : ((run (init size cap) as).any P) = true) : ∃ s, Reach size cap s ∧ P s = true :=
  have ⟨h1, h2⟩ := (Option.any_eq_true_iff_get _ _).1 h
  ⟨_, ⟨as, (Option.some_get h1).symm⟩, h2⟩

/-- The hypotheses of `C105_only_race` are met; so are those of the second part of `C105_quiet`. -/
example : ∃ s, Reach 2 1 s ∧ Race s .forwarder (.event 1) 1 .produced ∧ ∃ t, s.threads[1]? = some t ∧ t.rest.head? = some (.acc 0 .bytes .write) := by
  have h : ((run (init 2 1) exRace).any fun s => decide (s.threads[0]? = some ⟨.forwarder, [], [.acc 1 .produced .atomic]⟩ ∧
      s.threads[5]? = some ⟨.event 1, [(.produce 1, true)], .acc 1 .produced .write :: (send 1 ++ [.unlock (.produce 1)])⟩ ∧
      (s.threads[1]?.bind fun t => t.rest.head?) = some (.acc 0 .bytes .write))) = true := by decide +kernel
  obtain ⟨s, hs, h⟩ := of_any h
  rw [decide_eq_true_eq] at h
  obtain ⟨h1, h2, h3⟩ := h
  refine ⟨s, hs, ⟨0, 5, .atomic, .write, by decide, ⟨_, _, _, h1, rfl⟩, ⟨_, _, _, h2, rfl⟩, by decide, by decide⟩, ?_⟩
  exact Option.bind_eq_some_iff.1 h3

/-- The first part of `C105_quiet`: node 0 is about to lose its context, its events are finished, an event of node 1 is open. -/
example : ∃ s, Reach 2 1 s ∧ (∃ t, s.threads[1]? = some t ∧ t.rest.head? = some (.clearCtx 0)) ∧ (∃ u ∈ s.threads, u.role = .event 1) ∧ s.set 0 = true := by
  have h : ((run (init 2 1) (exStart ++ exCommit ++ List.replicate 8 (.go 1))).any fun s => decide ((s.threads[1]?.bind fun t => t.rest.head?) = some (.clearCtx 0) ∧
      (∃ u ∈ s.threads, u.role = .event 1) ∧ s.set 0 = true)) = true := by decide +kernel
  obtain ⟨s, hs, h⟩ := of_any h
  rw [decide_eq_true_eq] at h
  exact ⟨s, hs, Option.bind_eq_some_iff.1 h.1, h.2⟩

/-- A failed commit, with `Continue`: node 0 is lost while its event still runs, node 1 is on deck. -/
example : ∃ s, Reach 2 1 s ∧ s.lost = [0] ∧ s.deck = some 1 ∧ s.free = [] ∧ ∃ u ∈ s.threads, u.role = .event 0 := by
  have h : ((run (init 2 1) (exStart ++ [.takeQueued ⟨0, [true], [[(1, none)]]⟩] ++ List.replicate 8 (.go 1) ++ [.fail, .go 1, .go 1])).any fun s =>
      decide (s.lost = [0] ∧ s.deck = some 1 ∧ s.free = [] ∧ ∃ u ∈ s.threads, u.role = .event 0)) = true := by decide +kernel
  obtain ⟨s, hs, h⟩ := of_any h
  rw [decide_eq_true_eq] at h
  exact ⟨s, hs, h⟩

end Verif.Nodes
