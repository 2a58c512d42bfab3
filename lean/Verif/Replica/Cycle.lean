import Mathlib.Data.List.Dedup
import Verif.Eos.Model
/-
Proofs for C110: a pool without anything in it can take an event, and commit it.
-/
namespace Verif.Replica
open Verif.Eos

variable {c : Cfg}

/-- Nothing is in the pool, all transactions have ended. -/
structure Clean (c : Cfg) (p : Pool) : Prop where
  fwd : p.fwd = .idle
  com : p.com = .idle
  cq : p.cq = []
  nodes : ∀ q, p.nodes q = Node.new
  owner : ∀ tp, p.owner tp = none
  gen : p.nodeGen p.onDeck = p.ended.length ∧ p.gen = p.ended.length
  all : ∀ x ∈ p.added, x.2 < p.ended.length
  lt : p.onDeck < c.poolSize ∧ ∀ q ∈ p.free, q < c.poolSize

theorem clean_init (hn : 0 < c.poolSize) : Clean c (Pool.init c) := by
  refine ⟨rfl, rfl, rfl, fun _ => rfl, fun _ => rfl, ⟨rfl, rfl⟩, by intro x hx; simp [Pool.init] at hx, hn, ?_⟩
  intro q hq
  exact List.mem_range.1 (List.mem_of_mem_drop hq)

/-- One event is in the pool, in the transaction on deck; the forwarding goroutine is at `f`. -/
structure One (c : Cfg) (p : Pool) (f : Fwd) (e : Ev) : Prop where
  fwd : p.fwd = f
  com : p.com = .idle
  cq : p.cq = []
  evs : (p.nodes p.onDeck).evs = [e]
  cnt : (p.nodes p.onDeck).cnt = 1
  buf : (p.nodes p.onDeck).buf = []
  nodes : ∀ q, q ≠ p.onDeck → p.nodes q = Node.new
  owner : p.owner e.part = some p.onDeck
  owner' : ∀ tp, tp ≠ e.part → p.owner tp = none
  gen : p.nodeGen p.onDeck = p.ended.length ∧ p.gen = p.ended.length
  mem : e ∈ p.added.map Prod.fst
  asg : p.asg e.id = some p.onDeck
  all : ∀ x ∈ p.added, x.2 < p.ended.length + 1
  lt : p.onDeck < c.poolSize ∧ ∀ q ∈ p.free, q < c.poolSize

/-- The event is added and its context gets the producer. -/
theorem cycle_add {p : Pool} (P : Clean c p) {e : Ev} (hid : e.id ∉ p.added.map fun x => x.1.id) :
    ∃ p1 p2, Eos.step c p (.add e) = some p1 ∧ Eos.step c p1 .give = some p2 ∧ One c p2 .given e ∧ p1.done = p.done ∧ p2.done = p.done ∧
      p2.added = p.added ++ [(e, p.gen)] ∧ p2.asg e.id = some p.onDeck := by
  have h0 : p.nodes p.onDeck = Node.new := P.nodes _
  have h1 : Eos.step c p (.add e) = some { p with
      nodes := upd p.nodes p.onDeck { p.nodes p.onDeck with evs := (p.nodes p.onDeck).evs ++ [e], cnt := (p.nodes p.onDeck).cnt + 1 }
      fwd := .added e
      added := p.added ++ [(e, p.gen)] } := by
    simp only [Eos.step, P.fwd, P.com, if_neg hid]
  refine ⟨_, _, h1, rfl, ?_, rfl, rfl, rfl, ?_⟩
  · refine ⟨rfl, P.com, P.cq, ?_, ?_, ?_, ?_, ?_, ?_, P.gen, by simp, by simp [upd], ?_, P.lt⟩
    · simp [upd, h0, Node.new]
    · simp [upd, h0, Node.new]
    · simp [upd, h0, Node.new]
    · intro q hq; simp only [upd]; rw [if_neg hq]; exact P.nodes q
    · simp [P.owner, upd]
    · intro tp htp; simp [P.owner, upd, htp]
    · intro x hx
      rcases List.mem_append.1 hx with hx | hx
      · have := P.all x hx; show x.2 < p.ended.length + 1; omega
      · rw [List.mem_singleton] at hx; subst hx
        have := P.gen.2
        show p.gen < p.ended.length + 1; omega
  · simp [upd]

/-- A record is produced. -/
theorem cycle_produce {p : Pool} {f : Fwd} {e : Ev} (P : One c p f e) (hd : e.id ∉ p.done) (x : Nat) :
    ∃ p', Eos.step c p (.produce e x) = some p' ∧ One c p' f e ∧ p'.done = p.done := by
  have h1 : Eos.step c p (.produce e x) = some (produce p p.onDeck e.part (.user x)) := by
    simp only [Eos.step, P.asg, if_pos (⟨P.mem, hd⟩ : _ ∧ _)]
  refine ⟨_, h1, ?_, ?_⟩
  · unfold Eos.produce
    simp only [P.owner, if_true]
    refine ⟨P.fwd, P.com, P.cq, ?_, ?_, ?_, ?_, P.owner, P.owner', P.gen, P.mem, P.asg, P.all, P.lt⟩
    · simp [upd, P.evs]
    · simp [upd, P.cnt]
    · simp [upd, P.buf]
    · intro q hq; simp only [upd]; rw [if_neg hq]; exact P.nodes q hq
  · unfold Eos.produce; dsimp only; split <;> rfl

/-- The event is completed. -/
theorem cycle_complete {p : Pool} {f : Fwd} {e : Ev} (P : One c p f e) (hd : e.id ∉ p.done) :
    ∃ p', Eos.step c p (.complete e) = some p' ∧ One c p' f e ∧ e.id ∈ p'.done := by
  have h1 : Eos.step c p (.complete e) = some { p with done := p.done ++ [e.id] } := by
    simp only [Eos.step, P.asg, if_pos (⟨P.mem, hd⟩ : _ ∧ _)]
  exact ⟨_, h1, ⟨P.fwd, P.com, P.cq, P.evs, P.cnt, P.buf, P.nodes, P.owner, P.owner', P.gen, P.mem, P.asg, P.all, P.lt⟩, by simp⟩

/-- Steps that the pool makes by itself. -/
def Auto (l : Label) : Bool :=
  match l with
  | .check | .tick | .tryFlush | .forced | .swapIn | .take | .beginCommit _ | .wait | .endTxn _ | .release | .giveBack => true
  | _ => false

theorem run_append (c : Cfg) (p : Pool) (l m : List Label) : Eos.run c p (l ++ m) = (Eos.run c p l).bind fun p' => Eos.run c p' m := by
  induction l generalizing p with
  | nil => rfl
  | cons x l ih =>
    simp only [List.cons_append, Eos.run]
    cases Eos.step c p x with
    | none => rfl
    | some p' => exact ih p'

/-- The transaction is closed. -/
theorem cycle_flush (hp : 0 < c.pending) {p : Pool} {e : Ev} (P : One c p .given e) :
    ∃ ls p', (∀ l ∈ ls, Auto l = true) ∧ Eos.run c p ls = some p' ∧ p' = { p with fwd := .swap, cq := [p.onDeck] } := by
  have hcq := P.cq
  have try_ : ∀ q : Pool, q = { p with fwd := .trying } → ∃ ls, (∀ l ∈ ls, Auto l = true) ∧
      Eos.run c q ls = some { p with fwd := .swap, cq := [p.onDeck] } := by
    rintro q rfl
    by_cases hm : (p.nodes p.onDeck).load = c.max
    · refine ⟨[.tryFlush, .forced], by simp [Auto], ?_⟩
      simp [Eos.run, Eos.step, hm, hcq, hp]
    · refine ⟨[.tryFlush], by simp [Auto], ?_⟩
      simp [Eos.run, Eos.step, hm, hcq, hp, P.cnt]
  by_cases ht : c.target ≤ (p.nodes p.onDeck).load
  · obtain ⟨ls, h1, h2⟩ := try_ _ rfl
    refine ⟨.check :: ls, _, by simpa [Auto] using h1, ?_, rfl⟩
    have : Eos.step c p .check = some { p with fwd := .trying } := by simp only [Eos.step, P.fwd, if_pos ht]
    rw [Eos.run, this]; exact h2
  · obtain ⟨ls, h1, h2⟩ := try_ _ rfl
    refine ⟨.check :: .tick :: ls, _, by simpa [Auto] using h1, ?_, rfl⟩
    have h3 : Eos.step c p .check = some { p with fwd := .idle } := by simp only [Eos.step, P.fwd, if_neg ht]
    have h4 : Eos.step c { p with fwd := .idle } .tick = some { p with fwd := .trying } := by simp only [Eos.step]
    rw [Eos.run, h3, Option.bind_some, Eos.run, h4]; exact h2

/-- The transaction is being committed; `evs` and `own` are what the node has of the partition, `L` is the number of the transaction. -/
structure Ph (c : Cfg) (p : Pool) (com : Com) (e : Ev) (evs : List Ev) (own : Option Nat) (L : Nat) : Prop where
  fwd : p.fwd = .swap
  cq : p.cq = []
  com : p.com = com
  evs : (p.nodes p.onDeck).evs = evs
  buf : (p.nodes p.onDeck).buf = []
  nodes : ∀ q, q ≠ p.onDeck → p.nodes q = Node.new
  owner : p.owner e.part = own
  owner' : ∀ tp, tp ≠ e.part → p.owner tp = none
  gen : p.gen = L
  all : ∀ x ∈ p.added, x.2 < L + 1
  lt : p.onDeck < c.poolSize ∧ ∀ q ∈ p.free, q < c.poolSize
  done : e.id ∈ p.done

theorem ring_ne {n d q : Nat} (h : d < n) (hq : q ∈ ring n d) : q ≠ d := by
  unfold ring at hq
  obtain ⟨k, hk, rfl⟩ := List.mem_map.1 hq
  rw [List.mem_range] at hk
  intro he
  have h1 : d + 1 + k < 2 * n := by omega
  by_cases h2 : d + 1 + k < n
  · rw [Nat.mod_eq_of_lt h2] at he; omega
  · rw [Nat.mod_eq_sub_mod (by omega), Nat.mod_eq_of_lt (by omega)] at he; omega

theorem cycle_take {p : Pool} {e : Ev} (P : One c p .given e) (hd : e.id ∈ p.done) :
    ∃ p', Eos.step c { p with fwd := .swap, cq := [p.onDeck] } .take = some p' ∧ Ph c p' (.begun p.onDeck) e [e] (some p.onDeck) p.ended.length ∧
      p'.onDeck = p.onDeck ∧ p'.ended = p.ended := by
  have h1 : Eos.step c { p with fwd := .swap, cq := [p.onDeck] } .take = some { p with fwd := .swap, cq := [], com := .begun p.onDeck } := by
    simp only [Eos.step, P.com]
  exact ⟨_, h1, ⟨rfl, rfl, rfl, P.evs, P.buf, P.nodes, P.owner, P.owner', P.gen.2, P.all, P.lt, hd⟩, rfl, rfl⟩

theorem cycle_begin {p : Pool} {e : Ev} {L : Nat} (P : Ph c p (.begun p.onDeck) e [e] (some p.onDeck) L) :
    ∃ p', Eos.step c p (.beginCommit [e.part]) = some p' ∧ Ph c p' (.fin p.onDeck [] false [e.part]) e [e] (some p.onDeck) L ∧
      p'.onDeck = p.onDeck ∧ p'.ended = p.ended := by
  have hparts : (p.nodes p.onDeck).parts = [e.part] := by
    simp [Node.parts, P.evs]
  have h1 : Eos.step c p (.beginCommit [e.part]) = some { beginCommit p p.onDeck with com := .fin p.onDeck [] false [e.part] } := by
    simp only [Eos.step, P.com, hparts]
    rw [if_pos (show IsOrder [e.part] [e.part] from List.Perm.refl _)]
  refine ⟨_, h1, ⟨P.fwd, P.cq, rfl, ?_, ?_, ?_, ?_, ?_, P.gen, P.all, P.lt, P.done⟩, rfl, rfl⟩
  · simp [beginCommit, upd, P.evs]
  · simp [beginCommit, upd, P.buf]
  · intro q hq
    have hq' : q ≠ p.onDeck := hq
    simp [beginCommit, upd, hq', P.nodes q hq']
  · simp [beginCommit, Node.has, P.evs]
  · intro tp htp
    have : e.part ≠ tp := fun h => htp h.symm
    simp [beginCommit, Node.has, P.evs, this, P.owner' tp htp]

theorem cycle_wait1 {p : Pool} {e : Ev} {L : Nat} (P : Ph c p (.fin p.onDeck [] false [e.part]) e [e] (some p.onDeck) L) :
    ∃ p', Eos.step c p .wait = some p' ∧ Ph c p' (.fin p.onDeck [e] false []) e [e] (some p.onDeck) L ∧
      p'.onDeck = p.onDeck ∧ p'.ended = p.ended := by
  have hch : (p.nodes p.onDeck).chain e.part = [e] := by simp [Node.chain, P.evs]
  have h1 : Eos.step c p .wait = some { p with com := .fin p.onDeck [e] false [] } := by
    simp only [Eos.step, P.com, hch]
  exact ⟨_, h1, ⟨P.fwd, P.cq, rfl, P.evs, P.buf, P.nodes, P.owner, P.owner', P.gen, P.all, P.lt, P.done⟩, rfl, rfl⟩

theorem cycle_wait2 {p : Pool} {e : Ev} {L o : Nat} (ho : e.off = some o) (P : Ph c p (.fin p.onDeck [e] false []) e [e] (some p.onDeck) L) :
    ∃ p', Eos.step c p .wait = some p' ∧ Ph c p' (.fin p.onDeck [] true []) e [e] (some p.onDeck) L ∧
      p'.onDeck = p.onDeck ∧ p'.ended = p.ended := by
  have h1 : Eos.step c p .wait = some { produce p p.onDeck e.part (.commit e.part (o + 1)) with com := .fin p.onDeck [] true [] } := by
    simp only [Eos.step, P.com, if_pos P.done, ho]
  refine ⟨_, h1, ?_, ?_, ?_⟩
  · unfold produce
    simp only [P.owner, if_true]
    refine ⟨P.fwd, P.cq, rfl, ?_, ?_, ?_, P.owner, P.owner', P.gen, P.all, P.lt, P.done⟩
    · simp [upd, P.evs]
    · simp [upd, P.buf]
    · intro q hq
      have hq' : q ≠ p.onDeck := hq
      simp [upd, hq', P.nodes q hq']
  · unfold produce; dsimp only; split <;> rfl
  · unfold produce; dsimp only; split <;> rfl

theorem cycle_end {p : Pool} {e : Ev} {L : Nat} (P : Ph c p (.fin p.onDeck [] true []) e [e] (some p.onDeck) L) :
    ∃ p', Eos.step c p (.endTxn [e.part]) = some p' ∧ Ph c p' (.relinq p.onDeck [e.part]) e [e] (some p.onDeck) L ∧
      p'.onDeck = p.onDeck ∧ p'.ended.length = p.ended.length + 1 := by
  have hparts : (p.nodes p.onDeck).parts = [e.part] := by
    simp [Node.parts, P.evs]
  have h1 : Eos.step c p (.endTxn [e.part]) = some { p with
      ended := p.ended ++ [(p.nodeGen p.onDeck, decide ((p.nodes p.onDeck).produceCnt ≠ 0))], com := .relinq p.onDeck [e.part] } := by
    simp only [Eos.step, P.com, hparts]
    rw [if_pos (show IsOrder [e.part] [e.part] from List.Perm.refl _)]
  exact ⟨_, h1, ⟨P.fwd, P.cq, rfl, P.evs, P.buf, P.nodes, P.owner, P.owner', P.gen, P.all, P.lt, P.done⟩, rfl, by simp⟩

theorem cycle_release {p : Pool} {e : Ev} {L : Nat} (P : Ph c p (.relinq p.onDeck [e.part]) e [e] (some p.onDeck) L) :
    ∃ p', Eos.step c p .release = some p' ∧ Ph c p' (.relinq p.onDeck []) e [] none L ∧
      p'.onDeck = p.onDeck ∧ p'.ended = p.ended := by
  have hf : ((ring c.poolSize p.onDeck).find? fun q => (p.nodes q).has e.part) = none := by
    rw [List.find?_eq_none]
    intro q hq
    rw [P.nodes q (ring_ne P.lt.1 hq)]
    simp [Node.has, Node.new]
  have h1 : Eos.step c p .release = some { p with
      owner := upd p.owner e.part none
      nodes := upd p.nodes p.onDeck { p.nodes p.onDeck with evs := (p.nodes p.onDeck).evs.filter fun d => d.part ≠ e.part }
      com := .relinq p.onDeck [] } := by
    simp only [Eos.step, P.com, relinquish, hf]
  refine ⟨_, h1, ⟨P.fwd, P.cq, rfl, ?_, ?_, ?_, ?_, ?_, P.gen, P.all, P.lt, P.done⟩, rfl, rfl⟩
  · simp [upd, P.evs]
  · simp [upd, P.buf]
  · intro q hq
    have hq' : q ≠ p.onDeck := hq
    simp [upd, hq', P.nodes q hq']
  · simp [upd]
  · intro tp htp
    simp [upd, htp, P.owner' tp htp]

theorem cycle_last {p : Pool} {e : Ev} {L : Nat} (P : Ph c p (.relinq p.onDeck []) e [] none L) (hL : p.ended.length = L + 1) :
    ∃ p', Eos.run c p [.release, .giveBack, .swapIn] = some p' ∧ Clean c p' := by
  have h1 : Eos.step c p .release = some { p with nodes := upd p.nodes p.onDeck (p.nodes p.onDeck).clear, com := .back p.onDeck } := by
    simp only [Eos.step, P.com]
  have hnew : ∀ q, upd p.nodes p.onDeck (p.nodes p.onDeck).clear q = Node.new := by
    intro q
    by_cases hq : q = p.onDeck
    · subst hq; simp [upd, Node.clear, P.evs, Node.new]
    · simp [upd, hq, P.nodes q hq]
  obtain ⟨q, fr, hfr⟩ : ∃ q fr, p.free ++ [p.onDeck] = q :: fr := by
    cases h : p.free with
    | nil => exact ⟨_, _, rfl⟩
    | cons x l => exact ⟨_, _, rfl⟩
  have hlt : ∀ x ∈ q :: fr, x < c.poolSize := by
    intro x hx
    rw [← hfr] at hx
    rcases List.mem_append.1 hx with hx | hx
    · exact P.lt.2 x hx
    · rw [List.mem_singleton] at hx; subst hx; exact P.lt.1
  have hown : ∀ tp, p.owner tp = none := by
    intro tp
    by_cases h : tp = e.part
    · subst h; exact P.owner
    · exact P.owner' tp h
  have h2 : Eos.run c p [.release, .giveBack, .swapIn] = some { p with
      nodes := upd p.nodes p.onDeck (p.nodes p.onDeck).clear, com := .idle, onDeck := q, free := fr, fwd := .idle, gen := p.gen + 1,
      nodeGen := upd p.nodeGen q (p.gen + 1) } := by
    simp only [Eos.run, h1, Option.bind_some]
    simp only [Eos.step, Option.bind_some, P.fwd, hfr]
  refine ⟨_, h2, ⟨rfl, rfl, P.cq, hnew, hown, ⟨?_, ?_⟩, ?_, hlt q (by simp), fun x hx => hlt x (List.mem_cons_of_mem _ hx)⟩⟩
  · simp [upd, P.gen, hL]
  · simp [P.gen, hL]
  · intro x hx
    have := P.all x hx
    show x.2 < p.ended.length
    omega

/-- The transaction is committed. -/
theorem cycle_commit {p : Pool} {e : Ev} {o : Nat} (P : One c p .given e) (hd : e.id ∈ p.done) (ho : e.off = some o) :
    ∃ ls p', (∀ l ∈ ls, Auto l = true) ∧ Eos.run c { p with fwd := .swap, cq := [p.onDeck] } ls = some p' ∧ Clean c p' := by
  obtain ⟨p1, s1, P1, d1, e1⟩ := cycle_take P hd
  rw [← d1] at P1
  obtain ⟨p2, s2, P2, d2, e2⟩ := cycle_begin P1
  rw [← d2] at P2
  obtain ⟨p3, s3, P3, d3, e3⟩ := cycle_wait1 P2
  rw [← d3] at P3
  obtain ⟨p4, s4, P4, d4, e4⟩ := cycle_wait2 ho P3
  rw [← d4] at P4
  obtain ⟨p5, s5, P5, d5, e5⟩ := cycle_end P4
  rw [← d5] at P5
  obtain ⟨p6, s6, P6, d6, e6⟩ := cycle_release P5
  rw [← d6] at P6
  obtain ⟨p7, s7, P7⟩ := cycle_last P6 (by rw [e6, e5, e4, e3, e2, e1])
  refine ⟨[.take, .beginCommit [e.part], .wait, .wait, .endTxn [e.part], .release] ++ [.release, .giveBack, .swapIn], p7, by simp [Auto], ?_, P7⟩
  rw [run_append]
  simp only [Eos.run, s1, s2, s3, s4, s5, s6, Option.bind_some]
  exact s7

end Verif.Replica
