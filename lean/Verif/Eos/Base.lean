import Verif.Eos.Abstract
import Mathlib.Data.List.Dedup
import Mathlib.Tactic.Common
/-
The first invariant of the pool: which transactions are alive, what is in them, and that ended ones are finished.
-/
set_option linter.unusedSectionVars false
set_option linter.unusedSimpArgs false
namespace Verif.Eos

/-- Which partitions have been waited for while committing. -/
def Waited (a : A) (cur : List Ev) (rest : List Nat) : Prop :=
  ∃ (dn : List Nat) (ct : Option Nat), (dn ++ ct.toList ++ rest).Perm (a.nodes a.lo).parts ∧
    (∀ tp ∈ dn, ∀ e ∈ (a.nodes a.lo).evs, e.part = tp → e.id ∈ a.done) ∧
    match ct with
    | none => cur = []
    | some tp => ∃ pre, (a.nodes a.lo).chain tp = pre ++ cur ∧ ∀ e ∈ pre, e.id ∈ a.done

structure Base (n : Nat) (a : A) : Prop where
  win : a.lo ≤ a.top ∧ a.gen < a.lo + n
  st : match a.com with
    | .idle => a.st = a.lo
    | .stopped => a.st = a.lo ∨ a.st = a.lo + 1
    | _ => a.st = a.lo + 1
  top : a.st ≤ a.top
  fut : ∀ g, a.gen < g → a.nodes g = Node.new
  ids : (a.added.map fun x => x.1.id).Nodup
  mono : (a.added.map Prod.snd).Pairwise (· ≤ ·)
  le : ∀ x ∈ a.added, x.2 ≤ a.gen
  evs : ∀ g, a.lo ≤ g → (g ≠ a.lo ∨ a.relinquished = none) → (a.nodes g).evs = evOf a.added g
  evsr : ∀ rest, a.relinquished = some rest →
    (a.nodes a.lo).evs = (evOf a.added a.lo).filter fun e => e.part ∈ rest
  rnd : ∀ rest, a.relinquished = some rest → rest.Nodup
  rhas : ∀ rest, a.relinquished = some rest → ∀ tp ∈ rest, (a.nodes a.lo).has tp = true
  cnt : ∀ g, a.lo ≤ g → (g ≠ a.lo ∨ a.com ≠ .back) → (a.nodes g).cnt = (evOf a.added g).length
  clean : a.com = .back → a.nodes a.lo = Node.new
  asg1 : ∀ i g, a.asg i = some g → ∃ e, (e, g) ∈ a.added ∧ e.id = i
  asg2 : ∀ e g, (e, g) ∈ a.added → a.asg e.id = some g ∨ (a.asg e.id = none ∧ a.fwd = .added e ∧ g = a.gen)
  adding : ∀ e, a.fwd = .added e → (e, a.gen) ∈ a.added ∧ a.asg e.id = none
  old : ∀ e g, (e, g) ∈ a.added → g < a.lo → e.id ∈ a.done
  last : a.relinquished ≠ none → ∀ e, (e, a.lo) ∈ a.added → e.id ∈ a.done
  fin : ∀ cur flag rest, a.com = .fin cur flag rest → Waited a cur rest

theorem mem_parts {nd : Node} {tp : Nat} : tp ∈ nd.parts ↔ ∃ e ∈ nd.evs, e.part = tp := by
  simp [Node.parts]

theorem has_iff {nd : Node} {tp : Nat} : nd.has tp = true ↔ ∃ e ∈ nd.evs, e.part = tp := by
  simp [Node.has]

theorem mem_chain {nd : Node} {tp : Nat} {e : Ev} : e ∈ nd.chain tp ↔ e ∈ nd.evs ∧ e.part = tp := by
  simp [Node.chain]

theorem parts_nodup (nd : Node) : nd.parts.Nodup := List.nodup_dedup _

theorem added_unique {n : Nat} {a : A} (B : Base n a) {e e' : Ev} {g g' : Nat} (h : (e, g) ∈ a.added)
    (h' : (e', g') ∈ a.added) (he : e.id = e'.id) : e = e' ∧ g = g' := by
  have := List.inj_on_of_nodup_map B.ids h h' he
  simpa using this

/-- The committing transaction is not the one on deck, except while a new one is awaited. -/
theorem lo_lt_gen {n : Nat} {a : A} (B : Base n a) (h1 : a.fwd ≠ .swap) (h2 : a.st = a.lo + 1) : a.lo < a.gen := by
  have := B.top
  unfold A.top at this
  rw [if_neg h1] at this
  omega

theorem lo_le_gen {n : Nat} {a : A} (B : Base n a) (h2 : a.st = a.lo + 1) : a.lo ≤ a.gen := by
  have := B.top
  unfold A.top at this
  split at this <;> omega

theorem top_of_ne {a : A} (h : a.fwd ≠ .swap) : a.top = a.gen := by unfold A.top; rw [if_neg h]

theorem relinq_st {n : Nat} {a : A} (B : Base n a) (h : a.relinquished ≠ none) : a.st = a.lo + 1 := by
  have := B.st
  unfold A.relinquished at h
  revert this h
  cases a.com <;> simp

/-! ### `ProduceRecord` -/

theorem aproduce_frame (a : A) (g tp : Nat) (r : Rec) :
    (aproduce a g tp r).lo = a.lo ∧ (aproduce a g tp r).st = a.st ∧ (aproduce a g tp r).gen = a.gen ∧
    (aproduce a g tp r).owner = a.owner ∧ (aproduce a g tp r).fwd = a.fwd ∧ (aproduce a g tp r).com = a.com ∧
    (aproduce a g tp r).done = a.done ∧ (aproduce a g tp r).asg = a.asg ∧ (aproduce a g tp r).added = a.added ∧
    (aproduce a g tp r).ended = a.ended ∧ (aproduce a g tp r).calls = a.calls ++ [⟨g, tp, r⟩] := by
  unfold aproduce; split <;> simp

theorem aproduce_node (a : A) (g tp : Nat) (r : Rec) (g' : Nat) :
    ((aproduce a g tp r).nodes g').evs = (a.nodes g').evs ∧ ((aproduce a g tp r).nodes g').cnt = (a.nodes g').cnt := by
  unfold aproduce; split <;> (by_cases h : g' = g <;> simp [upd, h])

theorem aproduce_other (a : A) (g tp : Nat) (r : Rec) {g' : Nat} (h : g' ≠ g) :
    (aproduce a g tp r).nodes g' = a.nodes g' := by
  unfold aproduce; split <;> simp [upd, h]

theorem parts_congr {x y : Node} (h : x.evs = y.evs) : x.parts = y.parts := by unfold Node.parts; rw [h]
theorem chain_congr {x y : Node} (h : x.evs = y.evs) (tp : Nat) : x.chain tp = y.chain tp := by unfold Node.chain; rw [h]
theorem has_congr {x y : Node} (h : x.evs = y.evs) (tp : Nat) : x.has tp = y.has tp := by unfold Node.has; rw [h]

/-- A step that leaves the shape of the pool alone. -/
theorem base_same {n : Nat} {a a' : A} (B : Base n a) (h1 : a'.lo = a.lo) (h2 : a'.st = a.st) (h3 : a'.gen = a.gen)
    (h4 : a'.fwd = a.fwd) (h5 : a'.com = a.com) (h6 : a'.asg = a.asg) (h7 : a'.added = a.added)
    (hd : ∀ i, i ∈ a.done → i ∈ a'.done)
    (he : ∀ g, (a'.nodes g).evs = (a.nodes g).evs) (hc : ∀ g, (a'.nodes g).cnt = (a.nodes g).cnt)
    (hf : ∀ g, a.gen < g → a'.nodes g = a.nodes g) (hb : a.com = .back → a'.nodes a.lo = a.nodes a.lo) :
    Base n a' := by
  have hr : a'.relinquished = a.relinquished := by unfold A.relinquished; rw [h5]
  refine { win := ?_, st := ?_, top := ?_, fut := ?_, ids := ?_, mono := ?_, le := ?_, evs := ?_, evsr := ?_, rnd := ?_, rhas := ?_, cnt := ?_,
           clean := ?_, asg1 := ?_, asg2 := ?_, adding := ?_, old := ?_, last := ?_, fin := ?_ }
  · have := B.win
    unfold A.top at this ⊢
    rw [h1, h3, h4]; exact this
  · rw [h5, h2, h1]; exact B.st
  · have := B.top
    unfold A.top at this ⊢
    rw [h4, h3, h2]; exact this
  · intro g hg
    rw [h3] at hg
    rw [hf g hg]; exact B.fut g hg
  · rw [h7]; exact B.ids
  · rw [h7]; exact B.mono
  · rw [h7, h3]; exact B.le
  · intro g; rw [h1, hr, he, h7]; exact B.evs g
  · intro rest; rw [h1, hr, he, h7]; exact B.evsr rest
  · rw [hr]; exact B.rnd
  · intro rest hh tp ht
    rw [hr] at hh
    rw [h1, has_congr (he a.lo)]; exact B.rhas rest hh tp ht
  · intro g; rw [h1, h5, hc, h7]; exact B.cnt g
  · rw [h5, h1]; intro h; rw [hb h]; exact B.clean h
  · rw [h6, h7]; exact B.asg1
  · rw [h6, h7, h4, h3]; exact B.asg2
  · rw [h4, h7, h3, h6]; exact B.adding
  · rw [h7, h1]; exact fun e g h hl => hd _ (B.old e g h hl)
  · rw [hr, h7, h1]; exact fun h e he => hd _ (B.last h e he)
  · rw [h5]
    intro cur flag rest h
    obtain ⟨dn, ct, p1, p2, p3⟩ := B.fin cur flag rest h
    refine ⟨dn, ct, ?_, ?_, ?_⟩
    · rw [h1, parts_congr (he a.lo)]; exact p1
    · intro tp htp e hin hp
      rw [h1, he] at hin
      exact hd _ (p2 tp htp e hin hp)
    · cases ct with
      | none => exact p3
      | some tp =>
        obtain ⟨pre, q1, q2⟩ := p3
        exact ⟨pre, by rw [h1, chain_congr (he a.lo)]; exact q1, fun e he => hd _ (q2 e he)⟩

/-- A change of the forwarding goroutine's place. -/
theorem base_fwd {n : Nat} {a : A} (B : Base n a) (f : Fwd) (h1 : ∀ e, a.fwd ≠ .added e) (h2 : ∀ e, f ≠ .added e)
    (h3 : a.fwd = .swap → f = .swap) : Base n { a with fwd := f } := by
  refine { win := ?_, st := B.st, top := ?_, fut := B.fut, ids := B.ids, mono := B.mono, le := B.le, evs := B.evs,
           evsr := B.evsr, rnd := B.rnd, rhas := B.rhas, cnt := B.cnt, clean := B.clean, asg1 := B.asg1, asg2 := ?_, adding := ?_, old := B.old,
           last := B.last, fin := B.fin }
  · have := B.win
    unfold A.top at this ⊢
    simp only
    by_cases e : a.fwd = .swap
    · rw [h3 e, if_pos rfl]; rw [if_pos e] at this; exact this
    · rw [if_neg e] at this
      split <;> omega
  · have := B.top
    unfold A.top at this ⊢
    simp only
    by_cases e : a.fwd = .swap
    · rw [h3 e, if_pos rfl]; rw [if_pos e] at this; exact this
    · rw [if_neg e] at this
      split <;> omega
  · intro e g h
    rcases B.asg2 e g h with h' | ⟨_, h', _⟩
    · exact .inl h'
    · exact absurd h' (h1 e)
  · intro e h; exact absurd h (h2 e)

theorem base_step {c : Cfg} {a a' : A} (l : Label) (B : Base c.poolSize a) (h : astep c a l = some a') :
    Base c.poolSize a' := by
  cases l with
  | add e =>
    have key : a.fwd = .idle ∧ (∀ r, a.com ≠ .relinq r) ∧ e.id ∉ a.added.map (fun x => x.1.id) ∧
        a' = { a with
          nodes := upd a.nodes a.gen { a.nodes a.gen with
            evs := (a.nodes a.gen).evs ++ [e], cnt := (a.nodes a.gen).cnt + 1 }
          fwd := .added e
          added := a.added ++ [(e, a.gen)] } := by
      unfold astep at h
      simp only at h
      split at h
      · simp at h
      · rename_i h1 h2
        split at h
        · simp at h
        · rename_i h3
          refine ⟨h1, ?_, h3, (Option.some.inj h).symm⟩
          intro r hr
          exact h2 r hr
      · simp at h
    obtain ⟨hf, hc, hfresh, rfl⟩ := key
    have hlo : a.relinquished ≠ none → a.lo ≠ a.gen := by
      intro hr
      have := lo_lt_gen B (by rw [hf]; simp) (relinq_st B hr)
      omega
    have hcom : a.com = .back → a.lo ≠ a.gen := fun hb => hlo (by simp [A.relinquished, hb])
    refine { win := by have := B.win; unfold A.top at this ⊢; rw [hf] at this; simpa using this,
             st := B.st, top := ?_, fut := ?_, ids := ?_, mono := ?_, le := ?_, evs := ?_, evsr := ?_, rnd := B.rnd, rhas := ?_,
             cnt := ?_, clean := ?_, asg1 := ?_, asg2 := ?_, adding := ?_, old := ?_, last := ?_, fin := ?_ }
    · have := B.top
      unfold A.top at this ⊢
      rw [hf] at this
      simpa using this
    · intro g hg
      change a.gen < g at hg
      simp only [upd_ne _ _ (Nat.ne_of_gt hg)]
      exact B.fut g hg
    · simp only [List.map_append, List.map_cons, List.map_nil]
      rw [List.nodup_append]
      exact ⟨B.ids, by simp, fun x hx y hy => by simp at hy; subst hy; exact fun e => hfresh (e ▸ hx)⟩
    · simp only [List.map_append, List.map_cons, List.map_nil]
      rw [List.pairwise_append]
      refine ⟨B.mono, by simp, ?_⟩
      intro x hx y hy
      simp at hy
      subst hy
      obtain ⟨z, hz, rfl⟩ := List.mem_map.1 hx
      exact B.le z hz
    · intro x hx
      rcases List.mem_append.1 hx with hx | hx
      · exact B.le x hx
      · simp at hx; subst hx; exact Nat.le_refl _
    · intro g hg hr
      simp only
      rw [evOf_snoc]
      by_cases e1 : g = a.gen
      · subst e1
        rw [upd_same, if_pos rfl]
        simp only
        rw [B.evs a.gen hg hr]
      · rw [upd_ne _ _ e1, if_neg e1]; exact B.evs g hg hr
    · intro rest hr
      have hl := hlo (by change a.relinquished = some rest at hr; rw [hr]; simp)
      simp only
      rw [evOf_snoc, if_neg hl, upd_ne _ _ hl]
      exact B.evsr rest hr
    · intro rest hr tp ht
      have hl := hlo (by change a.relinquished = some rest at hr; rw [hr]; simp)
      simp only
      rw [upd_ne _ _ hl]
      exact B.rhas rest hr tp ht
    · intro g hg hr
      simp only
      rw [evOf_snoc]
      by_cases e1 : g = a.gen
      · subst e1
        rw [upd_same, if_pos rfl]
        simp only
        rw [B.cnt a.gen hg hr]; simp
      · rw [upd_ne _ _ e1, if_neg e1]; exact B.cnt g hg hr
    · intro hb
      have hl := hcom hb
      simp only
      rw [upd_ne _ _ hl]
      exact B.clean hb
    · intro i g hi
      obtain ⟨e', h1, h2⟩ := B.asg1 i g hi
      exact ⟨e', by simp [h1], h2⟩
    · intro e' g h'
      simp only [List.mem_append, List.mem_singleton] at h'
      rcases h' with h' | h'
      · rcases B.asg2 e' g h' with h'' | ⟨_, h'', _⟩
        · exact .inl h''
        · rw [hf] at h''; simp at h''
      · simp only [Prod.mk.injEq] at h'
        obtain ⟨rfl, rfl⟩ := h'
        right
        refine ⟨?_, rfl, rfl⟩
        cases hh : a.asg e'.id with
        | none => rfl
        | some g =>
          obtain ⟨e2, h1, h2⟩ := B.asg1 _ _ hh
          exact absurd (List.mem_map.2 ⟨_, h1, h2⟩) hfresh
    · intro e' he'
      simp only [Fwd.added.injEq] at he'
      subst he'
      refine ⟨by simp, ?_⟩
      cases hh : a.asg e.id with
      | none => rfl
      | some g =>
        obtain ⟨e2, h1, h2⟩ := B.asg1 _ _ hh
        exact absurd (List.mem_map.2 ⟨_, h1, h2⟩) hfresh
    · intro e' g h' hl
      simp only [List.mem_append, List.mem_singleton] at h'
      rcases h' with h' | h'
      · exact B.old e' g h' hl
      · simp only [Prod.mk.injEq] at h'
        obtain ⟨rfl, rfl⟩ := h'
        have := B.win.1
        rw [top_of_ne (by rw [hf]; simp)] at this
        simp only at hl
        omega
    · intro hr e' h'
      simp only [List.mem_append, List.mem_singleton] at h'
      rcases h' with h' | h'
      · exact B.last hr e' h'
      · simp only [Prod.mk.injEq] at h'
        exact absurd h'.2 (hlo hr)
    · intro cur flag rest hcom'
      have hl : a.lo < a.gen := by
        have hst := B.st
        rw [show a.com = .fin cur flag rest from hcom'] at hst
        exact lo_lt_gen B (by rw [hf]; simp) hst
      have hn : (upd a.nodes a.gen { a.nodes a.gen with
            evs := (a.nodes a.gen).evs ++ [e], cnt := (a.nodes a.gen).cnt + 1 }) a.lo = a.nodes a.lo :=
        upd_ne _ _ (Nat.ne_of_lt hl)
      have := B.fin cur flag rest hcom'
      unfold Waited at this ⊢
      simp only
      rw [hn]
      exact this
  | give =>
    unfold astep at h
    simp only at h
    split at h
    · rename_i e hf
      cases h
      refine { win := by have := B.win; unfold A.top at this ⊢; rw [hf] at this; simpa using this,
               st := B.st, top := ?_, fut := B.fut, ids := B.ids, mono := B.mono, le := B.le, evs := B.evs,
               evsr := B.evsr, rnd := B.rnd, rhas := B.rhas, cnt := B.cnt, clean := B.clean, asg1 := ?_, asg2 := ?_, adding := ?_, old := B.old,
               last := B.last, fin := B.fin }
      · have := B.top
        unfold A.top at this ⊢
        rw [hf] at this
        simpa using this
      · intro i g hi
        simp only [upd] at hi
        split at hi
        · rename_i he
          cases hi
          exact ⟨e, (B.adding e hf).1, he.symm⟩
        · exact B.asg1 i g hi
      · intro e' g h'
        left
        simp only [upd]
        rcases B.asg2 e' g h' with h'' | ⟨_, h'', hg⟩
        · split
          · rename_i he
            obtain ⟨_, h2⟩ := B.adding e hf
            rw [he, h2] at h''; simp at h''
          · exact h''
        · rw [hf] at h''
          cases h''
          rw [if_pos rfl, hg]
      · intro e' he'; simp at he'
    · simp at h
  | check =>
    unfold astep at h
    simp only at h
    split at h
    · rename_i hf
      cases h
      refine base_fwd B _ (by rw [hf]; simp) ?_ (by rw [hf]; simp)
      intro e; split <;> simp
    · simp at h
  | tick =>
    unfold astep at h
    simp only at h
    split at h
    · rename_i hf
      cases h
      exact base_fwd B _ (by rw [hf]; simp) (by simp) (by rw [hf]; simp)
    · simp at h
  | tryFlush =>
    unfold astep at h
    simp only at h
    split at h
    · rename_i hf
      repeat' split at h
      all_goals
        cases h
        exact base_fwd B _ (by rw [hf]; simp) (by simp) (by rw [hf]; simp)
    · simp at h
  | forced =>
    unfold astep at h
    simp only at h
    split at h
    · rename_i hf
      split at h
      · cases h
        exact base_fwd B _ (by rw [hf]; simp) (by simp) (by rw [hf]; simp)
      · simp at h
    · simp at h
  | swapIn =>
    unfold astep at h
    simp only at h
    split at h
    · rename_i hf
      split at h
      · rename_i hw
        cases h
        refine { win := ⟨by have := B.win.1; unfold A.top at this ⊢; rw [hf] at this; simpa using this, hw⟩, st := B.st, top := ?_, fut := ?_, ids := B.ids,
                 mono := B.mono, le := ?_, evs := B.evs, evsr := B.evsr, rnd := B.rnd, rhas := B.rhas, cnt := B.cnt, clean := B.clean, asg1 := B.asg1,
                 asg2 := ?_, adding := by simp, old := B.old, last := B.last, fin := B.fin }
        · have := B.top
          unfold A.top at this ⊢
          rw [hf] at this
          simpa using this
        · intro g hg; exact B.fut g (by simp only at hg; omega)
        · intro x hx; have := B.le x hx; simp only; omega
        · intro e g h'
          rcases B.asg2 e g h' with h'' | ⟨_, h'', _⟩
          · exact .inl h''
          · rw [hf] at h''; simp at h''
      · simp at h
    · simp at h
  | take =>
    unfold astep at h
    simp only at h
    split at h
    · rename_i hc
      split at h
      · rename_i hlt
        cases h
        have hst := B.st
        rw [hc] at hst
        have hrel : a.relinquished = none := by simp [A.relinquished, hc]
        refine { win := B.win, st := ?_, top := ?_, fut := B.fut, ids := B.ids, mono := B.mono, le := B.le, evs := ?_,
                 evsr := ?_, rnd := by simp [A.relinquished], rhas := by simp [A.relinquished], cnt := ?_, clean := by simp, asg1 := B.asg1, asg2 := B.asg2, adding := B.adding,
                 old := B.old, last := ?_, fin := by simp }
        · simp only at hst ⊢; omega
        · change a.st + 1 ≤ a.top; omega
        · intro g hg _; exact B.evs g hg (.inr hrel)
        · intro rest hr; simp [A.relinquished] at hr
        · intro g hg _; exact B.cnt g hg (.inr (by rw [hc]; simp))
        · intro hr; simp [A.relinquished] at hr
      · simp at h
    · simp at h
  | beginCommit order =>
    unfold astep at h
    simp only at h
    split at h
    · rename_i hc
      split at h
      · rename_i hord
        cases h
        have hst := B.st
        rw [hc] at hst
        have hrel : a.relinquished = none := by simp [A.relinquished, hc]
        have hev : ∀ g, ((abeginCommit a).nodes g).evs = (a.nodes g).evs := by
          intro g; unfold abeginCommit; by_cases e : g = a.lo <;> simp [upd, e]
        have hcn : ∀ g, ((abeginCommit a).nodes g).cnt = (a.nodes g).cnt := by
          intro g; unfold abeginCommit; by_cases e : g = a.lo <;> simp [upd, e]
        refine { win := B.win, st := hst, top := B.top, fut := ?_, ids := B.ids, mono := B.mono, le := B.le, evs := ?_,
                 evsr := ?_, rnd := by simp [A.relinquished], rhas := by simp [A.relinquished], cnt := ?_, clean := by simp, asg1 := B.asg1, asg2 := B.asg2, adding := B.adding,
                 old := B.old, last := ?_, fin := ?_ }
        · intro g hg
          have : (abeginCommit a).nodes g = a.nodes g := by
            unfold abeginCommit
            exact upd_ne _ _ (by have := lo_le_gen B hst; change a.gen < g at hg; omega)
          rw [show (({ abeginCommit a with com := ACom.fin [] false order } : A).nodes g) = (abeginCommit a).nodes g from rfl,
            this]
          exact B.fut g hg
        · intro g hg _
          exact (hev g).trans (B.evs g hg (.inr hrel))
        · intro rest hr; simp [A.relinquished] at hr
        · intro g hg _; exact (hcn g).trans (B.cnt g hg (.inr (by rw [hc]; simp)))
        · intro hr; simp [A.relinquished] at hr
        · intro cur flag rest hcom
          simp only [ACom.fin.injEq] at hcom
          obtain ⟨rfl, rfl, rfl⟩ := hcom
          refine ⟨[], none, ?_, by simp, rfl⟩
          change ([] ++ none.toList ++ order).Perm ((abeginCommit a).nodes a.lo).parts
          rw [parts_congr (hev a.lo)]
          simpa [IsOrder] using hord
      · simp at h
    · simp at h
  | wait =>
    have hlo : ∀ cur flag rest, a.com = .fin cur flag rest → a.relinquished = none := by
      intro cur flag rest hc; simp [A.relinquished, hc]
    -- moving on in the list of the current partition
    have move : ∀ (a1 : A) e es flag rest flag', a1.com = .fin (e :: es) flag rest → e.id ∈ a1.done → Base c.poolSize a1 →
        Base c.poolSize { a1 with com := .fin es flag' rest } := by
      intro a1 e es flag rest flag' hc hd B1
      have hst := B1.st
      rw [hc] at hst
      have hr1 : a1.relinquished = none := by simp [A.relinquished, hc]
      refine { win := B1.win, st := hst, top := B1.top, fut := B1.fut, ids := B1.ids, mono := B1.mono, le := B1.le,
               evs := fun g hg _ => B1.evs g hg (.inr hr1), evsr := by simp [A.relinquished], rnd := by simp [A.relinquished], rhas := by simp [A.relinquished],
               cnt := fun g hg _ => B1.cnt g hg (.inr (by rw [hc]; simp)), clean := by simp, asg1 := B1.asg1,
               asg2 := B1.asg2, adding := B1.adding, old := B1.old, last := by simp [A.relinquished], fin := ?_ }
      intro cur flag2 rest2 hcom
      simp only [ACom.fin.injEq] at hcom
      obtain ⟨rfl, rfl, rfl⟩ := hcom
      obtain ⟨dn, ct, p1, p2, p3⟩ := B1.fin _ _ _ hc
      refine ⟨dn, ct, p1, p2, ?_⟩
      cases ct with
      | none => simp at p3
      | some tp =>
        obtain ⟨pre, q1, q2⟩ := p3
        refine ⟨pre ++ [e], by simp only [List.append_assoc, List.singleton_append]; exact q1, ?_⟩
        intro x hx
        rcases List.mem_append.1 hx with hx | hx
        · exact q2 x hx
        · simp at hx; subst hx; exact hd
    unfold astep at h
    simp only at h
    split at h
    · rename_i e es flag rest hc
      split at h
      · rename_i hd
        split at h
        · rename_i o hoff
          cases h
          have hfr := aproduce_frame a a.lo e.part (.commit e.part (o + 1))
          have B1 : Base c.poolSize (aproduce a a.lo e.part (.commit e.part (o + 1))) := by
            obtain ⟨f1, f2, f3, f4, f5, f6, f7, f8, f9, _⟩ := hfr
            refine base_same B f1 f2 f3 f5 f6 f8 f9 (by rw [f7]; exact fun _ h => h)
              (fun g => (aproduce_node _ _ _ _ g).1) (fun g => (aproduce_node _ _ _ _ g).2) ?_ (by rw [hc]; simp)
            intro g hg
            exact aproduce_other _ _ _ _ (by have := lo_le_gen B (by have hst := B.st; rw [hc] at hst; exact hst); omega)
          exact move _ e es _ rest true (by rw [hfr.2.2.2.2.2.1]; exact hc) (by rw [hfr.2.2.2.2.2.2.1]; exact hd) B1
        · cases h
          exact move _ e es _ rest _ hc hd B
      · simp at h
    · rename_i flag tp rest hc
      cases h
      have hst := B.st
      rw [hc] at hst
      have hrel := hlo _ _ _ hc
      refine { win := B.win, st := hst, top := B.top, fut := B.fut, ids := B.ids, mono := B.mono, le := B.le,
               evs := fun g hg _ => B.evs g hg (.inr hrel), evsr := by simp [A.relinquished], rnd := by simp [A.relinquished], rhas := by simp [A.relinquished],
               cnt := fun g hg _ => B.cnt g hg (.inr (by rw [hc]; simp)), clean := by simp, asg1 := B.asg1,
               asg2 := B.asg2, adding := B.adding, old := B.old, last := by simp [A.relinquished], fin := ?_ }
      intro cur flag2 rest2 hcom
      simp only [ACom.fin.injEq] at hcom
      obtain ⟨rfl, rfl, rfl⟩ := hcom
      obtain ⟨dn, ct, p1, p2, p3⟩ := B.fin _ _ _ hc
      refine ⟨dn ++ ct.toList, some tp, ?_, ?_, [], rfl, by simp⟩
      · simpa [List.append_assoc] using p1
      · intro t ht e he hp
        rcases List.mem_append.1 ht with ht | ht
        · exact p2 t ht e he hp
        · cases ct with
          | none => simp at ht
          | some t' =>
            simp at ht
            subst ht
            obtain ⟨pre, q1, q2⟩ := p3
            rw [List.append_nil] at q1
            refine q2 e ?_
            rw [← q1, mem_chain]
            exact ⟨he, hp⟩
    · simp at h
  | endTxn order =>
    unfold astep at h
    simp only at h
    split at h
    · rename_i flag hc
      split at h
      · rename_i hord
        cases h
        have hst := B.st
        rw [hc] at hst
        have hrel : a.relinquished = none := by simp [A.relinquished, hc]
        have hevs := B.evs a.lo (Nat.le_refl _) (.inr hrel)
        refine { win := B.win, st := hst, top := B.top, fut := B.fut, ids := B.ids, mono := B.mono, le := B.le,
                 evs := fun g hg _ => B.evs g hg (.inr hrel), evsr := ?_, rnd := ?_, rhas := ?_,
                 cnt := fun g hg _ => B.cnt g hg (.inr (by rw [hc]; simp)), clean := by simp, asg1 := B.asg1,
                 asg2 := B.asg2, adding := B.adding, old := B.old, last := ?_, fin := by simp }
        · intro rest hr
          simp only [A.relinquished, Option.some.injEq] at hr
          subst hr
          simp only
          rw [hevs]
          symm
          rw [List.filter_eq_self]
          intro e he
          simp only [decide_eq_true_eq]
          exact (hord.mem_iff).2 (mem_parts.2 ⟨e, by rw [hevs]; exact he, rfl⟩)
        · intro rest hr
          simp only [A.relinquished, Option.some.injEq] at hr
          subst hr
          exact (List.Perm.nodup_iff hord).2 (parts_nodup _)
        · intro rest hr tp ht
          simp only [A.relinquished, Option.some.injEq] at hr
          subst hr
          exact has_iff.2 (mem_parts.1 (hord.mem_iff.1 ht))
        · intro _ e he
          simp only at he ⊢
          have hin : e ∈ (a.nodes a.lo).evs := by rw [hevs]; exact mem_evOf.2 he
          obtain ⟨dn, ct, p1, p2, p3⟩ := B.fin _ _ _ hc
          have hp : e.part ∈ dn ++ ct.toList ++ [] := p1.mem_iff.2 (mem_parts.2 ⟨e, hin, rfl⟩)
          rw [List.append_nil, List.mem_append] at hp
          rcases hp with hp | hp
          · exact p2 _ hp e hin rfl
          · cases ct with
            | none => simp at hp
            | some tp =>
              simp at hp
              obtain ⟨pre, q1, q2⟩ := p3
              rw [List.append_nil] at q1
              refine q2 e ?_
              rw [← q1, mem_chain]
              exact ⟨hin, hp⟩
      · simp at h
    · simp at h
  | release =>
    unfold astep at h
    simp only at h
    split at h
    · rename_i tp rest hc
      cases h
      have hst := B.st
      rw [hc] at hst
      have hrel : a.relinquished = some (tp :: rest) := by simp [A.relinquished, hc]
      have hfr : (arelinquish c.poolSize a tp).lo = a.lo ∧ (arelinquish c.poolSize a tp).st = a.st ∧
          (arelinquish c.poolSize a tp).gen = a.gen ∧ (arelinquish c.poolSize a tp).fwd = a.fwd ∧
          (arelinquish c.poolSize a tp).done = a.done ∧ (arelinquish c.poolSize a tp).asg = a.asg ∧
          (arelinquish c.poolSize a tp).added = a.added := by
        unfold arelinquish; split <;> simp [aflushPartition]
      obtain ⟨f1, f2, f3, f4, f5, f6, f7⟩ := hfr
      have hev : ∀ g, ((arelinquish c.poolSize a tp).nodes g).evs =
          if g = a.lo then (a.nodes a.lo).evs.filter (fun e => decide (e.part ≠ tp)) else (a.nodes g).evs := by
        intro g
        unfold arelinquish
        simp only
        split
        · rename_i q hq
          by_cases e : g = a.lo
          · subst e
            simp only [upd_same, if_true, aflushPartition]
            by_cases e2 : a.lo = q
            · subst e2; simp [upd_same]
            · rw [upd_ne _ _ e2]
          · simp only [upd_ne _ _ e, if_neg e, aflushPartition]
            by_cases e2 : g = q
            · subst e2; rw [upd_same]
            · rw [upd_ne _ _ e2]
        · by_cases e : g = a.lo
          · subst e; simp [upd_same]
          · simp [upd_ne _ _ e, e]
      have hcn : ∀ g, ((arelinquish c.poolSize a tp).nodes g).cnt = (a.nodes g).cnt := by
        intro g
        unfold arelinquish
        simp only
        split
        · rename_i q hq
          simp only [aflushPartition, upd]
          by_cases e : g = a.lo <;> by_cases e2 : g = q <;> by_cases e3 : a.lo = q <;> simp_all
        · simp only [upd]
          by_cases e : g = a.lo <;> simp [e]
      refine { win := by have := B.win; unfold A.top at this ⊢; simp only; rw [f1, f3, f4]; exact this,
               st := ?_, top := ?_, fut := ?_, ids := ?_, mono := ?_, le := ?_, evs := ?_, evsr := ?_, rnd := ?_, rhas := ?_, cnt := ?_,
               clean := by simp, asg1 := ?_, asg2 := ?_, adding := ?_, old := ?_, last := ?_, fin := by simp }
      · simp only; rw [f1, f2]; exact hst
      · have := B.top
        unfold A.top at this ⊢
        simp only
        rw [f2, f3, f4]; exact this
      · intro g hg
        simp only at hg ⊢
        rw [f3] at hg
        have hgl : g ≠ a.lo := by have := lo_le_gen B hst; omega
        have hnew := B.fut g hg
        unfold arelinquish
        simp only
        split
        · rename_i q hq
          have hq' := List.find?_some hq
          rw [upd_ne _ _ hgl]
          simp only [aflushPartition]
          rw [upd_ne]
          · exact hnew
          · rintro rfl
            rw [hnew] at hq'
            simp [Node.new, Node.has] at hq'
        · rw [upd_ne _ _ hgl]; exact hnew
      · simp only; rw [f7]; exact B.ids
      · simp only; rw [f7]; exact B.mono
      · simp only; rw [f7, f3]; exact B.le
      · intro g hg hor
        simp only at hg hor ⊢
        rw [f1] at hg hor
        have hgl : g ≠ a.lo := by
          rcases hor with h | h
          · exact h
          · simp [A.relinquished] at h
        rw [hev, if_neg hgl, f7]
        exact B.evs g hg (.inl hgl)
      · intro rest' hr
        simp only [A.relinquished, Option.some.injEq] at hr
        subst hr
        simp only
        rw [f1, hev, if_pos rfl, B.evsr _ hrel, f7, List.filter_filter]
        apply List.filter_congr
        intro e _
        have hnd := List.nodup_cons.1 (B.rnd _ hrel)
        by_cases e1 : e.part = tp
        · simp [e1, hnd.1]
        · simp [e1]
      · intro rest' hr
        simp only [A.relinquished, Option.some.injEq] at hr
        subst hr
        exact (List.nodup_cons.1 (B.rnd _ hrel)).2
      · intro rest' hr t ht
        simp only [A.relinquished, Option.some.injEq] at hr
        subst hr
        have h1 := B.rhas _ hrel t (List.mem_cons_of_mem _ ht)
        have h2 : t ≠ tp := by rintro rfl; exact (List.nodup_cons.1 (B.rnd _ hrel)).1 ht
        simp only
        rw [f1]
        obtain ⟨e, h3, h4⟩ := has_iff.1 h1
        refine has_iff.2 ⟨e, ?_, h4⟩
        rw [hev, if_pos rfl, List.mem_filter]
        exact ⟨h3, by rw [h4]; simpa using h2⟩
      · intro g hg hor
        simp only at hg hor ⊢
        rw [f1] at hg
        rw [hcn, f7]
        exact B.cnt g hg (.inr (by rw [hc]; simp))
      · simp only; rw [f6, f7]; exact B.asg1
      · simp only; rw [f6, f7, f4, f3]; exact B.asg2
      · simp only; rw [f4, f7, f3, f6]; exact B.adding
      · simp only; rw [f7, f1, f5]; exact B.old
      · simp only; rw [f7, f1, f5]; exact fun _ => B.last (by rw [hrel]; simp)
    · rename_i hc
      cases h
      have hst := B.st
      rw [hc] at hst
      have hrel : a.relinquished = some [] := by simp [A.relinquished, hc]
      have hnil : (a.nodes a.lo).evs = [] := by rw [B.evsr _ hrel]; simp
      have hcl : (a.nodes a.lo).clear = Node.new := by
        unfold Node.clear Node.new; rw [hnil]
      refine { win := B.win, st := hst, top := B.top, fut := ?_, ids := B.ids, mono := B.mono, le := B.le,
               evs := ?_, evsr := ?_, rnd := by simp [A.relinquished], rhas := by simp [A.relinquished], cnt := ?_, clean := ?_, asg1 := B.asg1,
               asg2 := B.asg2, adding := B.adding, old := B.old, last := ?_, fin := by simp }
      · intro g hg
        have hgl : g ≠ a.lo := by have := lo_le_gen B hst; change a.gen < g at hg; omega
        simp only
        rw [upd_ne _ _ hgl]; exact B.fut g hg
      · intro g hg hor
        have hgl : g ≠ a.lo := by
          rcases hor with h | h
          · exact h
          · simp [A.relinquished] at h
        simp only
        rw [upd_ne _ _ hgl]
        exact B.evs g hg (.inl hgl)
      · intro rest hr
        simp only [A.relinquished, Option.some.injEq] at hr
        subst hr
        simp only
        rw [upd_same, hcl]; simp [Node.new]
      · intro g hg hor
        have hgl : g ≠ a.lo := by
          rcases hor with h | h
          · exact h
          · simp at h
        simp only
        rw [upd_ne _ _ hgl]
        exact B.cnt g hg (.inl hgl)
      · intro _; simp only; rw [upd_same, hcl]
      · intro _; exact B.last (by rw [hrel]; simp)
    · simp at h
  | giveBack =>
    unfold astep at h
    simp only at h
    split at h
    · rename_i hc
      cases h
      have hst := B.st
      rw [hc] at hst
      have hrel : a.relinquished = some [] := by simp [A.relinquished, hc]
      have hlast := B.last (by rw [hrel]; simp)
      have hg := lo_le_gen B hst
      refine { win := ⟨?_, ?_⟩, st := hst, top := B.top, fut := B.fut, ids := B.ids, mono := B.mono, le := B.le,
               evs := ?_, evsr := by simp [A.relinquished], rnd := by simp [A.relinquished], rhas := by simp [A.relinquished], cnt := ?_, clean := by simp,
               asg1 := B.asg1, asg2 := B.asg2, adding := B.adding, old := ?_, last := by simp [A.relinquished],
               fin := by simp }
      · have := B.top
        rw [show a.st = a.lo + 1 from hst] at this
        exact this
      · have := B.win.2; simp only; omega
      · intro g hg' _
        simp only at hg' ⊢
        exact B.evs g (by omega) (.inl (by omega))
      · intro g hg' _
        simp only at hg' ⊢
        exact B.cnt g (by omega) (.inl (by omega))
      · intro e g he hl
        simp only at hl ⊢
        by_cases e1 : g = a.lo
        · subst e1; exact hlast e he
        · exact B.old e g he (by omega)
    · simp at h
  | commitFail cont =>
    unfold astep at h
    simp only at h
    split at h
    · rename_i cur flag rest hc
      split at h
      · simp at h
      · cases h
        have hst := B.st
        rw [hc] at hst
        have hrel : a.relinquished = none := by simp [A.relinquished, hc]
        exact { win := B.win, st := .inr hst, top := B.top, fut := B.fut, ids := B.ids, mono := B.mono, le := B.le,
                evs := fun g hg _ => B.evs g hg (.inr hrel), evsr := by simp [A.relinquished], rnd := by simp [A.relinquished], rhas := by simp [A.relinquished],
                cnt := fun g hg _ => B.cnt g hg (.inr (by rw [hc]; simp)), clean := by simp, asg1 := B.asg1,
                asg2 := B.asg2, adding := B.adding, old := B.old, last := by simp [A.relinquished], fin := by simp }
    · simp at h
  | asyncFail =>
    unfold astep at h
    simp only at h
    split at h
    · rename_i hc
      cases h
      have hst := B.st
      rw [hc] at hst
      have hrel : a.relinquished = none := by simp [A.relinquished, hc]
      exact { win := B.win, st := .inl hst, top := B.top, fut := B.fut, ids := B.ids, mono := B.mono, le := B.le,
              evs := fun g hg _ => B.evs g hg (.inr hrel), evsr := by simp [A.relinquished], rnd := by simp [A.relinquished], rhas := by simp [A.relinquished],
              cnt := fun g hg _ => B.cnt g hg (.inr (by rw [hc]; simp)), clean := by simp, asg1 := B.asg1,
              asg2 := B.asg2, adding := B.adding, old := B.old, last := by simp [A.relinquished], fin := by simp }
    · simp at h
  | produce e x =>
    unfold astep at h
    simp only at h
    split at h
    · rename_i g hg
      split at h
      · rename_i hh
        cases h
        obtain ⟨f1, f2, f3, f4, f5, f6, f7, f8, f9, _⟩ := aproduce_frame a g e.part (.user x)
        obtain ⟨e', he', hid⟩ := B.asg1 _ _ hg
        refine base_same B f1 f2 f3 f5 f6 f8 f9 (by rw [f7]; exact fun _ h => h)
          (fun g => (aproduce_node _ _ _ _ g).1) (fun g => (aproduce_node _ _ _ _ g).2) ?_ ?_
        · intro g' hg'
          refine aproduce_other _ _ _ _ ?_
          have := B.le _ he'
          simp only at this; omega
        · intro hb
          refine aproduce_other _ _ _ _ ?_
          rintro rfl
          have := B.last (by simp [A.relinquished, hb]) e' he'
          rw [hid] at this
          exact hh.2 this
      · simp at h
    · simp at h
  | complete e =>
    unfold astep at h
    simp only at h
    split at h
    · split at h
      · cases h
        exact base_same B rfl rfl rfl rfl rfl rfl rfl (by simp; tauto) (fun _ => rfl) (fun _ => rfl) (fun _ _ => rfl)
          (fun _ => rfl)
      · simp at h
    · simp at h

theorem base_init {n : Nat} (hn : 0 < n) : Base n A.init := by
  refine { win := ?_, st := rfl, top := ?_, fut := fun _ _ => rfl, ids := ?_, mono := ?_, le := ?_, evs := ?_, evsr := ?_,
           rnd := ?_, rhas := ?_, cnt := ?_, clean := ?_, asg1 := ?_, asg2 := ?_, adding := ?_, old := ?_, last := ?_, fin := ?_ } <;>
    simp [A.init, A.top, A.relinquished, evOf, Node.new, hn]

theorem base_reach {c : Cfg} (hn : 0 < c.poolSize) {a : A} (h : AReach c a) : Base c.poolSize a := by
  induction h with
  | init => exact base_init hn
  | step l _ hs ih => exact base_step l ih hs

/-- An event that is not finished is in a transaction that is alive. -/
theorem alive {n : Nat} {a : A} (B : Base n a) {e : Ev} {g : Nat} (h : (e, g) ∈ a.added) (hd : e.id ∉ a.done) :
    a.lo ≤ g ∧ g ≤ a.gen ∧ (a.nodes g).has e.part = true := by
  have h1 : a.lo ≤ g := by
    by_contra hc
    exact hd (B.old e g h (by omega))
  refine ⟨h1, B.le _ h, ?_⟩
  rw [has_iff]
  refine ⟨e, ?_, rfl⟩
  rw [B.evs g h1]
  · exact mem_evOf.2 h
  · by_contra hc
    simp only [not_or, ne_eq, Decidable.not_not] at hc
    obtain ⟨rfl, hr⟩ := hc
    exact hd (B.last hr e h)

end Verif.Eos
