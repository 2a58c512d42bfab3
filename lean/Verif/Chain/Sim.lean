import Verif.Chain.Proofs
/-
The pool with pointers and the pool with lists make the same steps.
-/
set_option linter.unusedSectionVars false
set_option linter.unusedSimpArgs false
set_option linter.unusedVariables false
namespace Verif.Chain
open Verif.Eos

/-- `Com` with this list of events still to be waited for. -/
def setCur (l : List Ev) : Com → Com
  | .fin p _ flag rest => .fin p l flag rest
  | x => x

/-- The pool with lists. -/
def glue (q : Pool) (evs : Nat → List Ev) (l : List Ev) : Pool :=
  { q with nodes := fun p => { q.nodes p with evs := evs p }, com := setCur l q.com }

/-- The node of the commit loop. -/
def nodeOf : Com → Option Nat
  | .begun p => some p
  | .fin p _ _ _ => some p
  | .relinq p _ => some p
  | .back p => some p
  | _ => none

def isFin : Com → Bool
  | .fin _ _ _ _ => true
  | _ => false

/-- All nodes that are anywhere are nodes of the pool. -/
structure Lt (n : Nat) (q : Pool) : Prop where
  deck : q.onDeck < n
  free : ∀ p ∈ q.free, p < n
  cq : ∀ p ∈ q.cq, p < n
  com : ∀ p, nodeOf q.com = some p → p < n

structure Rel (n : Nat) (s : St) (evs : Nat → List Ev) (l : List Ev) : Prop where
  lt : Lt n s.q
  ring : ∀ p, p < n → s.next p = some ((p + 1) % n)
  keys : ∀ p, (s.cur p).keys.Nodup
  dom : ∀ i, (s.heap i).isSome = true ↔ i ∈ s.q.added.map fun x => x.1.id
  newest : ∀ p tp, Walk Obj.prev s.heap (((s.cur p).get tp).map Dll.tail) ((evs p).filter fun e => e.part = tp).reverse
  oldest : ∀ p tp, Walk Obj.next s.heap (((s.cur p).get tp).map Dll.root) ((evs p).filter fun e => e.part = tp)
  left : isFin s.q.com = true → Walk Obj.prev s.heap s.ptr l
  apart : ∀ p p' e e', e ∈ evs p → e' ∈ evs p' → e.id = e'.id → p = p'
  ids : ∀ p, ((evs p).map Ev.id).Nodup

theorem upd_glue (f : Nat → Node) (evs : Nat → List Ev) (p : Nat) (x : Node) :
    (fun k => { upd f p x k with evs := evs k }) = upd (fun k => { f k with evs := evs k }) p { x with evs := evs p } := by
  funext k
  unfold upd
  split
  · rename_i h; subst h; rfl
  · rfl

/-- The labels that do not concern the events of nodes. -/
def plain : Label → Bool
  | .add _ => false
  | .beginCommit _ => false
  | .wait => false
  | .endTxn _ => false
  | .release => false
  | _ => true

theorem produce_glue (q : Pool) (evs : Nat → List Ev) (l : List Ev) (p tp : Nat) (r : Rec) :
    produce (glue q evs l) p tp r = glue (produce q p tp r) evs l := by
  unfold produce glue
  simp only
  split
  · simp only [upd_glue]
  · simp only [upd_glue]

theorem step_plain {c : Cfg} {lab : Label} (hl : plain lab = true) (q : Pool) (evs : Nat → List Ev) (l : List Ev) :
    Eos.step c (glue q evs l) lab = (Eos.step c q lab).map fun q' => glue q' evs l := by
  cases lab with
  | add e => simp [plain] at hl
  | beginCommit o => simp [plain] at hl
  | wait => simp [plain] at hl
  | endTxn o => simp [plain] at hl
  | release => simp [plain] at hl
  | produce e x =>
    simp only [Eos.step]
    rw [show (glue q evs l).asg e.id = q.asg e.id from rfl]
    cases q.asg e.id with
    | none => rfl
    | some p =>
      simp only [produce_glue]
      rw [show (glue q evs l).added = q.added from rfl, show (glue q evs l).done = q.done from rfl]
      split <;> simp
  | complete e =>
    simp only [Eos.step]
    rw [show (glue q evs l).asg e.id = q.asg e.id from rfl]
    cases q.asg e.id with
    | none => rfl
    | some p =>
      simp only
      rw [show (glue q evs l).added = q.added from rfl, show (glue q evs l).done = q.done from rfl]
      split <;> simp [glue]
  | give =>
    simp only [Eos.step]
    rw [show (glue q evs l).fwd = q.fwd from rfl]
    cases q.fwd <;> rfl
  | check =>
    simp only [Eos.step]
    rw [show (glue q evs l).fwd = q.fwd from rfl]
    cases q.fwd <;> rfl
  | tick =>
    simp only [Eos.step]
    rw [show (glue q evs l).fwd = q.fwd from rfl]
    cases q.fwd <;> simp [glue]
  | tryFlush =>
    simp only [Eos.step]
    rw [show (glue q evs l).fwd = q.fwd from rfl]
    cases q.fwd <;> try rfl
    simp only
    rw [show ((glue q evs l).nodes (glue q evs l).onDeck).load = (q.nodes q.onDeck).load from rfl,
      show ((glue q evs l).nodes (glue q evs l).onDeck).cnt = (q.nodes q.onDeck).cnt from rfl, show (glue q evs l).cq = q.cq from rfl]
    by_cases h1 : (q.nodes q.onDeck).load = c.max
    · rw [if_pos h1, if_pos h1]; rfl
    · rw [if_neg h1, if_neg h1]
      by_cases h2 : 0 < (q.nodes q.onDeck).cnt
      · rw [if_pos h2, if_pos h2]
        by_cases h3 : q.cq.length < c.pending
        · rw [if_pos h3, if_pos h3]; rfl
        · rw [if_neg h3, if_neg h3]; rfl
      · rw [if_neg h2, if_neg h2]; rfl
  | forced =>
    simp only [Eos.step]
    rw [show (glue q evs l).fwd = q.fwd from rfl]
    cases q.fwd <;> try rfl
    simp only
    rw [show (glue q evs l).cq = q.cq from rfl]
    by_cases h3 : q.cq.length < c.pending
    · rw [if_pos h3, if_pos h3]; rfl
    · rw [if_neg h3, if_neg h3]; rfl
  | swapIn =>
    simp only [Eos.step]
    rw [show (glue q evs l).fwd = q.fwd from rfl, show (glue q evs l).free = q.free from rfl]
    cases q.fwd <;> cases q.free <;> simp [glue]
  | take =>
    simp only [Eos.step]
    rw [show (glue q evs l).com = setCur l q.com from rfl, show (glue q evs l).cq = q.cq from rfl]
    cases q.com <;> cases q.cq <;> simp [glue, setCur]
  | giveBack =>
    simp only [Eos.step]
    rw [show (glue q evs l).com = setCur l q.com from rfl]
    cases q.com <;> simp [glue, setCur]
  | commitFail b =>
    simp only [Eos.step]
    rw [show (glue q evs l).com = setCur l q.com from rfl]
    cases q.com <;> simp [glue, setCur] <;> cases b <;> simp
  | asyncFail =>
    simp only [Eos.step]
    rw [show (glue q evs l).com = setCur l q.com from rfl]
    cases q.com <;> simp [glue, setCur]

theorem produce_frame (q : Pool) (p tp : Nat) (r : Rec) : (produce q p tp r).onDeck = q.onDeck ∧ (produce q p tp r).free = q.free ∧
    (produce q p tp r).cq = q.cq ∧ (produce q p tp r).com = q.com ∧ (produce q p tp r).added = q.added := by
  unfold produce
  simp only
  split <;> simp

theorem plain_frame {c : Cfg} {n : Nat} {lab : Label} (hl : plain lab = true) {q q' : Pool} (h : Eos.step c q lab = some q') (hq : Lt n q) :
    Lt n q' ∧ q'.added = q.added ∧ (isFin q'.com = true → isFin q.com = true) := by
  obtain ⟨h1, h2, h3, h4⟩ := hq
  cases lab with
  | add e => simp [plain] at hl
  | beginCommit o => simp [plain] at hl
  | wait => simp [plain] at hl
  | endTxn o => simp [plain] at hl
  | release => simp [plain] at hl
  | produce e x =>
    simp only [Eos.step] at h
    split at h
    · split at h
      · cases h
        rename_i p _ _
        obtain ⟨e1, e2, e3, e4, e5⟩ := produce_frame q p e.part (.user x)
        exact ⟨⟨by rw [e1]; exact h1, by rw [e2]; exact h2, by rw [e3]; exact h3, by rw [e4]; exact h4⟩, e5, by rw [e4]; exact id⟩
      · cases h
    · cases h
  | complete e =>
    simp only [Eos.step] at h
    repeat' split at h
    all_goals first | cases h; done | (cases h; exact ⟨⟨h1, h2, h3, h4⟩, rfl, id⟩)
  | give =>
    simp only [Eos.step] at h
    repeat' split at h
    all_goals first | cases h; done | (cases h; exact ⟨⟨h1, h2, h3, h4⟩, rfl, id⟩)
  | check =>
    simp only [Eos.step] at h
    repeat' split at h
    all_goals first | cases h; done | (cases h; exact ⟨⟨h1, h2, h3, h4⟩, rfl, id⟩)
  | tick =>
    simp only [Eos.step] at h
    repeat' split at h
    all_goals first | cases h; done | (cases h; exact ⟨⟨h1, h2, h3, h4⟩, rfl, id⟩)
  | tryFlush =>
    simp only [Eos.step] at h
    repeat' split at h
    all_goals first | cases h; done | (cases h; exact ⟨⟨h1, h2, h3, h4⟩, rfl, id⟩) | skip
    cases h
    refine ⟨⟨h1, h2, ?_, h4⟩, rfl, id⟩
    intro p hp
    rcases List.mem_append.1 hp with hp | hp
    · exact h3 p hp
    · rw [List.mem_singleton.1 hp]; exact h1
  | forced =>
    simp only [Eos.step] at h
    repeat' split at h
    all_goals first | cases h; done | skip
    cases h
    refine ⟨⟨h1, h2, ?_, h4⟩, rfl, id⟩
    intro p hp
    rcases List.mem_append.1 hp with hp | hp
    · exact h3 p hp
    · rw [List.mem_singleton.1 hp]; exact h1
  | swapIn =>
    simp only [Eos.step] at h
    split at h
    · rename_i p fr _ hf
      cases h
      exact ⟨⟨h2 p (by rw [hf]; simp), fun x hx => h2 x (by rw [hf]; simp [hx]), h3, h4⟩, rfl, id⟩
    · cases h
  | take =>
    simp only [Eos.step] at h
    split at h
    · rename_i p cq _ hf
      cases h
      refine ⟨⟨h1, h2, fun x hx => h3 x (by rw [hf]; simp [hx]), ?_⟩, rfl, ?_⟩
      · intro x hx
        simp only [nodeOf, Option.some.injEq] at hx
        exact hx ▸ h3 p (by rw [hf]; simp)
      · intro hc; simp [isFin] at hc
    · cases h
  | giveBack =>
    simp only [Eos.step] at h
    split at h
    · rename_i p hf
      cases h
      refine ⟨⟨h1, ?_, h3, ?_⟩, rfl, ?_⟩
      · intro x hx
        rcases List.mem_append.1 hx with hx | hx
        · exact h2 x hx
        · rw [List.mem_singleton.1 hx]; exact h4 p (by rw [hf]; rfl)
      · intro x hx; simp [nodeOf] at hx
      · intro hc; simp [isFin] at hc
    · cases h
  | commitFail b =>
    simp only [Eos.step] at h
    split at h
    · cases h
      refine ⟨⟨h1, h2, h3, ?_⟩, rfl, ?_⟩
      · intro x hx; cases b <;> simp [nodeOf] at hx
      · intro hc; cases b <;> simp [isFin] at hc
    · cases h
  | asyncFail =>
    simp only [Eos.step] at h
    split at h
    · cases h
      refine ⟨⟨h1, h2, h3, ?_⟩, rfl, ?_⟩
      · intro x hx; simp [nodeOf] at hx
      · intro hc; simp [isFin] at hc
    · cases h

/-! ### What is known of a node from its map -/

variable {n : Nat} {s : St} {evs : Nat → List Ev} {l : List Ev}

theorem has_get (r : Rel n s evs l) (p tp : Nat) : ((s.cur p).get tp).isSome = (evs p).any fun e => e.part = tp := by
  have h := (r.newest p tp).head
  rw [Bool.eq_iff_iff, List.any_eq_true]
  rw [← Option.isSome_map (f := Dll.tail), h, Option.isSome_map, List.isSome_head?]
  simp only [Bool.not_eq_eq_eq_not, Bool.not_true, List.isEmpty_eq_false_iff, ne_eq, List.reverse_eq_nil_iff]
  rw [← ne_eq, ← List.length_pos_iff, List.length_pos_iff_exists_mem]
  simp only [List.mem_filter]

theorem keys_perm (r : Rel n s evs l) (p : Nat) : (s.cur p).keys.Perm ((evs p).map Ev.part).dedup := by
  rw [List.perm_ext_iff_of_nodup (r.keys p) (List.nodup_dedup _)]
  intro tp
  rw [mem_keys, has_get r, List.mem_dedup, List.any_eq_true, List.mem_map]
  simp

theorem order_iff (r : Rel n s evs l) (p : Nat) (order : List Nat) :
    IsOrder order (s.cur p).keys ↔ IsOrder order ((glue s.q evs l).nodes p).parts := by
  have := keys_perm r p
  unfold IsOrder Node.parts
  exact ⟨fun h => h.trans this, fun h => h.trans this.symm⟩

theorem has_glue (r : Rel n s evs l) (p tp : Nat) : ((glue s.q evs l).nodes p).has tp = ((s.cur p).get tp).isSome := by
  rw [has_get r]; rfl

theorem heap_mem (r : Rel n s evs l) {p : Nat} {e : Ev} (h : e ∈ evs p) : (s.heap e.id).isSome = true :=
  (r.newest p e.part).isSome e (by simp [h])

end Verif.Chain
