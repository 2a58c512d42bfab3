import Verif.Eos.Fin
import Mathlib.Data.Nat.ModEq
/-
Every run of the pool is a run of the pool seen by transactions: transaction `g` is on node `g % n`.
-/
set_option linter.unusedSectionVars false
set_option linter.unusedSimpArgs false
namespace Verif.Eos

/-- The place of the commit loop with the node filled in (`streams/eos_producer.go:207-240`). -/
def toCom (p : Nat) : ACom → Com
  | .idle => .idle
  | .begun => .begun p
  | .fin cur flag rest => .fin p cur flag rest
  | .relinq rest => .relinq p rest
  | .back => .back p
  | .stopped => .stopped

/-- The pool `s` (`streams/eos_producer.go:82-95`) seen by transactions is `a`. -/
structure R (n : Nat) (s : Pool) (a : A) : Prop where
  nodes : ∀ g, a.lo ≤ g → g < a.lo + n → s.nodes (g % n) = a.nodes g
  onDeck : s.onDeck = a.gen % n
  free : s.free = (List.range' (a.gen + 1) (a.lo + n - (a.gen + 1))).map (· % n)
  cq : s.cq = (List.range' a.st (a.top - a.st)).map (· % n)
  nodeGen : ∀ g, a.lo ≤ g → g ≤ a.gen → s.nodeGen (g % n) = g
  owner : ∀ tp, s.owner tp = (a.owner tp).map (· % n)
  asg : ∀ i, s.asg i = (a.asg i).map (· % n)
  com : s.com = toCom (a.lo % n) a.com
  fwd : s.fwd = a.fwd
  done : s.done = a.done
  gen : s.gen = a.gen
  added : s.added = a.added
  calls : s.calls = a.calls
  sent : s.sent = a.sent
  ended : s.ended = a.ended

theorem mod_inj {n lo g g' : Nat} (h1 : lo ≤ g) (h2 : g < lo + n) (h3 : lo ≤ g') (h4 : g' < lo + n) (h : g % n = g' % n) :
    g = g' := by
  obtain ⟨k, rfl⟩ := Nat.exists_eq_add_of_le h1
  obtain ⟨k', rfl⟩ := Nat.exists_eq_add_of_le h3
  have h5 := Nat.ModEq.add_left_cancel' lo (show lo + k ≡ lo + k' [MOD n] from h)
  have h6 : k % n = k' % n := h5
  rw [Nat.mod_eq_of_lt (by omega), Nat.mod_eq_of_lt (by omega)] at h6
  omega

theorem sim_nodes {n lo : Nat} {f f' : Nat → Node} (h : ∀ g, lo ≤ g → g < lo + n → f (g % n) = f' g) {g : Nat}
    (hg1 : lo ≤ g) (hg2 : g < lo + n) (x : Node) :
    ∀ g', lo ≤ g' → g' < lo + n → upd f (g % n) x (g' % n) = upd f' g x g' := by
  intro g' h1 h2
  by_cases e : g' = g
  · subst e; rw [upd_same, upd_same]
  · rw [upd_ne _ _ e, upd_ne]
    · exact h g' h1 h2
    · intro hc; exact e (mod_inj h1 h2 hg1 hg2 hc)

theorem sim_produce {n : Nat} {s : Pool} {a : A} (B : Base n a) (O : Order n a) (r : R n s a) {g tp : Nat} (x : Rec)
    (h1 : a.lo ≤ g) (h2 : g ≤ a.gen) : R n (produce s (g % n) tp x) (aproduce a g tp x) := by
  have hw := B.win.2
  have hown : s.owner tp = some (g % n) ↔ a.owner tp = some g := by
    rw [r.owner]
    constructor
    · intro h
      rw [Option.map_eq_some_iff] at h
      obtain ⟨g', h3, h4⟩ := h
      obtain ⟨h5, h6, _⟩ := O.own1 tp g' h3
      rw [h3, mod_inj h5 (by omega) h1 (by omega) h4]
    · intro h; rw [h]; rfl
  unfold produce aproduce
  simp only
  rw [r.nodes g h1 (by omega), r.nodeGen g h1 h2]
  by_cases e : a.owner tp = some g
  · rw [if_pos (hown.2 e), if_pos e]
    exact { r with
      nodes := sim_nodes r.nodes h1 (by omega) _
      calls := by simp only; rw [r.calls]
      sent := by simp only; rw [r.sent] }
  · rw [if_neg (fun h => e (hown.1 h)), if_neg e]
    exact { r with
      nodes := sim_nodes r.nodes h1 (by omega) _
      calls := by simp only; rw [r.calls] }

theorem ring_eq {n lo : Nat} : ring n (lo % n) = (List.range' (lo + 1) (n - 1)).map (· % n) := by
  unfold ring
  rw [List.range'_eq_map_range, List.map_map]
  apply List.map_congr_left
  intro k _
  simp only [Function.comp]
  rw [show lo % n + 1 + k = lo % n + (1 + k) by omega, Nat.mod_add_mod]
  congr 1; omega

theorem find_congr {l : List Nat} {p q : Nat → Bool} (h : ∀ x ∈ l, p x = q x) : l.find? p = l.find? q := by
  induction l with
  | nil => rfl
  | cons x l ih =>
    simp only [List.find?_cons]
    rw [h x (by simp), ih (fun y hy => h y (by simp [hy]))]

theorem sim_relinquish {n : Nat} {s : Pool} {a : A} (hn : 0 < n) (B : Base n a) (r : R n s a) (tp : Nat) :
    R n (relinquish n s (a.lo % n) tp) (arelinquish n a tp) := by
  have hw := B.win.2
  have hfind : (ring n (a.lo % n)).find? (fun q => (s.nodes q).has tp) =
      ((List.range' (a.lo + 1) (n - 1)).find? fun g => (a.nodes g).has tp).map (· % n) := by
    rw [ring_eq, List.find?_map]
    congr 1
    apply find_congr
    intro g hg
    rw [List.mem_range'] at hg
    obtain ⟨i, h1, h2⟩ := hg
    simp only [Function.comp]
    rw [r.nodes g (by omega) (by omega)]
  unfold relinquish arelinquish
  rw [hfind]
  cases hq : (List.range' (a.lo + 1) (n - 1)).find? (fun g => (a.nodes g).has tp) with
  | none =>
    simp only [Option.map_none]
    have hl := r.nodes a.lo (Nat.le_refl _) (by omega)
    refine { r with nodes := ?_, owner := ?_ }
    · simp only; rw [hl]; exact sim_nodes r.nodes (Nat.le_refl _) (by omega) _
    · intro t
      by_cases e : t = tp
      · subst e; simp only [upd_same]; rfl
      · simp only [upd_ne _ _ e]; exact r.owner t
  | some q =>
    simp only [Option.map_some]
    obtain ⟨q1, q2, q3, q4⟩ := find_range_some hq
    have hqg : q ≤ a.gen := by
      by_contra hgt
      rw [B.fut q (by omega)] at q3
      simp [Node.new, Node.has] at q3
    have hqn := r.nodes q (by omega) (by omega)
    have hqq := r.nodeGen q (by omega) hqg
    have h1 := sim_nodes r.nodes (g := q) (by omega) (by omega)
      { a.nodes q with
        buf := (a.nodes q).buf.filter fun e => e.1 ≠ tp
        opened := (a.nodes q).opened || !((a.nodes q).buf.filter fun e => e.1 = tp).isEmpty }
    refine { r with nodes := ?_, owner := ?_, sent := ?_ }
    · simp only [flushPartition, aflushPartition]
      rw [hqn]
      have hl := h1 a.lo (Nat.le_refl _) (by omega)
      rw [hl]
      exact sim_nodes h1 (Nat.le_refl _) (by omega) _
    · intro t
      simp only [flushPartition, aflushPartition]
      by_cases e : t = tp
      · subst e; simp only [upd_same]; rfl
      · simp only [upd_ne _ _ e]; exact r.owner t
    · simp only [flushPartition, aflushPartition]
      rw [hqn, hqq, r.sent]

theorem sim_init {c : Cfg} (hn : 0 < c.poolSize) : R c.poolSize (Pool.init c) A.init := by
  refine { nodes := fun _ _ _ => rfl, onDeck := by simp [Pool.init, A.init], free := ?_,
           cq := by simp [Pool.init, A.init, A.top],
           nodeGen := ?_, owner := fun _ => rfl, asg := fun _ => rfl, com := rfl, fwd := rfl, done := rfl, gen := rfl,
           added := rfl, calls := rfl, sent := rfl, ended := rfl }
  · simp only [Pool.init, A.init]
    rw [List.range_eq_range', List.drop_range']
    apply List.ext_getElem
    · simp
    · intro i h1 h2
      simp at h1 h2
      simp
      rw [Nat.mod_eq_of_lt (by omega)]
  · intro g h1 h2
    simp [A.init] at h2
    subst h2; rfl

theorem sim_step {c : Cfg} (hn : 0 < c.poolSize) {s s' : Pool} {a : A} (l : Label) (hl : l ≠ .commitFail true)
    (B : Base c.poolSize a) (O : Order c.poolSize a) (r : R c.poolSize s a) (h : step c s l = some s') :
    ∃ a', astep c a l = some a' ∧ R c.poolSize s' a' := by
  have hw := B.win
  have hcqlen : s.cq.length = a.top - a.st := by rw [r.cq]; simp
  have hcase : ∀ x : Com, s.com = x → toCom (a.lo % c.poolSize) a.com = x := fun x hx => by rw [← r.com]; exact hx
  cases l with
  | add e =>
    unfold step at h
    simp only at h
    split at h
    · simp at h
    · rename_i hf hc
      split at h
      · simp at h
      · rename_i hid
        cases h
        rw [r.fwd] at hf
        have hlg : a.lo ≤ a.gen := by
          have := hw.1
          rwa [top_of_ne (by rw [hf]; simp)] at this
        have hcom : ∀ rr, a.com ≠ .relinq rr := by
          intro rr hr
          exact hc _ rr (by rw [r.com, hr]; rfl)
        refine ⟨{ a with
            nodes := upd a.nodes a.gen { a.nodes a.gen with
              evs := (a.nodes a.gen).evs ++ [e], cnt := (a.nodes a.gen).cnt + 1 }
            fwd := .added e
            added := a.added ++ [(e, a.gen)] }, ?_, ?_⟩
        · unfold astep
          simp only
          rw [r.added] at hid
          split
          · rename_i hr; exact absurd hr (hcom _)
          · rw [if_neg hid]
          · rename_i h1 h2; exact absurd hf h1
        · refine { r with nodes := ?_, fwd := rfl, added := ?_, cq := ?_ }
          · simp only
            rw [r.onDeck, r.nodes a.gen hlg hw.2]
            exact sim_nodes r.nodes hlg hw.2 _
          · simp only
            rw [r.cq]
            unfold A.top
            simp [hf]
          · simp only; rw [r.added, r.gen]
    · simp at h
  | give =>
    unfold step at h
    simp only at h
    split at h
    · rename_i e hf
      cases h
      rw [r.fwd] at hf
      refine ⟨_, by unfold astep; simp only; rw [hf], ?_⟩
      refine { r with fwd := rfl, owner := ?_, asg := ?_, cq := ?_ }
      rotate_left
      · intro tp
        simp only
        have h1 : s.owner e.part = none ↔ a.owner e.part = none := by rw [r.owner]; simp
        by_cases h2 : a.owner e.part = none
        · rw [if_pos (h1.2 h2), if_pos h2]
          by_cases e1 : tp = e.part
          · subst e1; rw [upd_same, upd_same, r.onDeck]; rfl
          · rw [upd_ne _ _ e1, upd_ne _ _ e1]; exact r.owner tp
        · rw [if_neg (fun h => h2 (h1.1 h)), if_neg h2]; exact r.owner tp
      · intro i
        simp only
        by_cases e1 : i = e.id
        · subst e1; rw [upd_same, upd_same, r.onDeck]; rfl
        · rw [upd_ne _ _ e1, upd_ne _ _ e1]; exact r.asg i
      · simp only
        rw [r.cq]
        unfold A.top
        simp [hf]
    · simp at h
  | check =>
    unfold step at h
    simp only at h
    split at h
    · rename_i hf
      cases h
      rw [r.fwd] at hf
      have hlg : a.lo ≤ a.gen := by
        have := hw.1
        rwa [top_of_ne (by rw [hf]; simp)] at this
      refine ⟨_, by unfold astep; simp only; rw [hf], ?_⟩
      refine { r with fwd := ?_, cq := ?_ }
      · simp only
        rw [r.cq]
        unfold A.top
        rw [hf]
        dsimp only
        by_cases hh : c.target ≤ (a.nodes a.gen).load
        · rw [if_pos hh, if_neg (by simp), if_neg (by simp)]
        · rw [if_neg hh, if_neg (by simp), if_neg (by simp)]
      · simp only; rw [r.onDeck, r.nodes a.gen hlg hw.2]
    · simp at h
  | tick =>
    unfold step at h
    simp only at h
    split at h
    · rename_i hf
      cases h
      rw [r.fwd] at hf
      refine ⟨_, by unfold astep; simp only; rw [hf], ?_⟩
      refine { r with fwd := rfl, cq := ?_ }
      simp only
      rw [r.cq]
      unfold A.top
      simp [hf]
    · simp at h
  | tryFlush =>
    unfold step at h
    simp only at h
    split at h
    · rename_i hf
      rw [r.fwd] at hf
      have htop : a.top = a.gen := top_of_ne (by rw [hf]; simp)
      have hlg : a.lo ≤ a.gen := by rw [htop] at hw; exact hw.1
      rw [r.onDeck, r.nodes a.gen hlg hw.2, hcqlen, htop] at h
      have hcq : ∀ f, f ≠ Fwd.swap → s.cq = (List.range' a.st (({ a with fwd := f } : A).top - a.st)).map (· % c.poolSize) := by
        intro f h1
        rw [r.cq, htop, top_of_ne (a := { a with fwd := f }) h1]
      have hcq2 : s.cq ++ [a.gen % c.poolSize] =
          (List.range' a.st (({ a with fwd := .swap } : A).top - a.st)).map (· % c.poolSize) := by
        rw [r.cq, htop]
        have : ({ a with fwd := .swap } : A).top = a.gen + 1 := by simp [A.top]
        rw [this]
        have := B.top
        rw [htop] at this
        rw [show a.gen + 1 - a.st = (a.gen - a.st) + 1 by omega, List.range'_concat]
        simp
        congr 1; omega
      unfold astep
      simp only
      rw [hf]
      simp only
      repeat' split at h
      · cases h
        refine ⟨_, if_pos (by assumption), ?_⟩
        exact { r with fwd := rfl, cq := hcq _ (by simp), onDeck := rfl }
      · cases h
        refine ⟨_, by rw [if_neg (by assumption), if_pos (by assumption), if_pos (by assumption)], ?_⟩
        exact { r with fwd := rfl, cq := hcq2, onDeck := rfl }
      · cases h
        refine ⟨_, by rw [if_neg (by assumption), if_pos (by assumption), if_neg (by assumption)], ?_⟩
        exact { r with fwd := rfl, cq := hcq _ (by simp), onDeck := rfl }
      · cases h
        refine ⟨_, by rw [if_neg (by assumption), if_neg (by assumption)], ?_⟩
        exact { r with fwd := rfl, cq := hcq _ (by simp), onDeck := rfl }
    · simp at h
  | forced =>
    unfold step at h
    simp only at h
    split at h
    · rename_i hf
      rw [r.fwd] at hf
      have htop : a.top = a.gen := top_of_ne (by rw [hf]; simp)
      rw [r.onDeck, hcqlen, htop] at h
      split at h
      · cases h
        refine ⟨_, by unfold astep; simp only; rw [hf]; simp only; rw [if_pos (by assumption)], ?_⟩
        refine { r with fwd := rfl, cq := ?_, onDeck := rfl }
        simp only
        rw [r.cq, htop]
        have : ({ a with fwd := .swap } : A).top = a.gen + 1 := by simp [A.top]
        rw [this]
        have := B.top
        rw [htop] at this
        rw [show a.gen + 1 - a.st = (a.gen - a.st) + 1 by omega, List.range'_concat]
        simp
        congr 1; omega
      · simp at h
    · simp at h
  | swapIn =>
    unfold step at h
    simp only at h
    split at h
    · rename_i q free hf hfree
      cases h
      rw [r.fwd] at hf
      rw [r.free] at hfree
      have hlt : a.gen + 1 < a.lo + c.poolSize := by
        by_contra hc
        rw [show a.lo + c.poolSize - (a.gen + 1) = 0 by omega] at hfree
        simp at hfree
      rw [show a.lo + c.poolSize - (a.gen + 1) = (a.lo + c.poolSize - (a.gen + 1 + 1)) + 1 by omega, List.range'_succ,
        List.map_cons] at hfree
      simp only [List.cons.injEq] at hfree
      obtain ⟨rfl, rfl⟩ := hfree
      refine ⟨_, by unfold astep; simp only; rw [hf]; simp only; rw [if_pos hlt], ?_⟩
      have htop : a.top = a.gen + 1 := by unfold A.top; rw [if_pos hf]
      refine { r with onDeck := rfl, free := rfl, fwd := rfl, gen := ?_, nodeGen := ?_, cq := ?_ }
      rotate_left
      · intro g h1 h2
        simp only at h1 h2 ⊢
        rw [r.gen]
        by_cases e : g = a.gen + 1
        · subst e; rw [upd_same]
        · rw [upd_ne]
          · exact r.nodeGen g h1 (by omega)
          · intro hc; exact e (mod_inj h1 (by omega) (by omega) hlt hc)
      · simp only; rw [r.gen]
      · simp only
        rw [r.cq, htop]
        rfl
    · simp at h
  | take =>
    unfold step at h
    simp only at h
    split at h
    · rename_i p cq hc hcq
      cases h
      have hac : a.com = .idle := by
        have := hcase _ hc
        revert this; cases a.com <;> simp [toCom]
      rw [r.cq] at hcq
      have hlt : a.st < a.top := by
        by_contra hh
        rw [show a.top - a.st = 0 by omega] at hcq
        simp at hcq
      rw [show a.top - a.st = (a.top - (a.st + 1)) + 1 by omega, List.range'_succ, List.map_cons] at hcq
      simp only [List.cons.injEq] at hcq
      obtain ⟨rfl, rfl⟩ := hcq
      have hst := B.st
      rw [hac] at hst
      refine ⟨_, by unfold astep; simp only; rw [hac]; simp only; rw [if_pos hlt], ?_⟩
      exact { r with com := by simp only [toCom]; rw [show a.st = a.lo from hst], cq := rfl }
    · simp at h
  | beginCommit order =>
    unfold step at h
    simp only at h
    split at h
    · rename_i p hc
      have hac : a.com = .begun ∧ p = a.lo % c.poolSize := by
        have := hcase _ hc
        revert this; cases a.com <;> simp [toCom]
        intro h; exact h.symm
      obtain ⟨hac, rfl⟩ := hac
      have hst := B.st
      rw [hac] at hst
      have hlg := lo_le_gen B hst
      have hnl := r.nodes a.lo (Nat.le_refl _) (by omega)
      split at h
      · rename_i hord
        cases h
        rw [hnl] at hord
        refine ⟨_, by unfold astep; simp only; rw [hac]; simp only; rw [if_pos hord], ?_⟩
        refine { r with nodes := ?_, owner := ?_, sent := ?_, com := rfl }
        · simp only [beginCommit, abeginCommit]
          rw [hnl]
          exact sim_nodes r.nodes (Nat.le_refl _) (by omega) _
        · intro tp
          simp only [beginCommit, abeginCommit]
          rw [hnl]
          split
          · rfl
          · exact r.owner tp
        · simp only [beginCommit, abeginCommit]
          rw [hnl, r.sent, r.nodeGen a.lo (Nat.le_refl _) hlg]
      · simp at h
    · simp at h
  | wait =>
    unfold step at h
    simp only at h
    split at h
    · rename_i p e es flag rest hc
      have hac : a.com = .fin (e :: es) flag rest ∧ p = a.lo % c.poolSize := by
        have := hcase _ hc
        revert this; cases a.com <;> simp [toCom]
        intro h1 h2 h3 h4; exact ⟨⟨h2, h3, h4⟩, h1.symm⟩
      obtain ⟨hac, rfl⟩ := hac
      have hst := B.st
      rw [hac] at hst
      have hlg := lo_le_gen B hst
      rw [r.done] at h
      unfold astep
      simp only
      rw [hac]
      simp only
      split at h
      · rename_i hd
        rw [if_pos hd]
        split at h
        · rename_i o hoff
          cases h
          rw [hoff]
          refine ⟨_, rfl, ?_⟩
          have r1 := sim_produce B O r (tp := e.part) (.commit e.part (o + 1)) (Nat.le_refl a.lo) hlg
          refine { r1 with com := ?_ }
          rw [show ({ aproduce a a.lo e.part (Rec.commit e.part (o + 1)) with com := ACom.fin es true rest } : A).lo = a.lo from
            (aproduce_frame _ _ _ _).1]
          rfl
        · rename_i hno
          cases h
          rename_i flag _ _
          refine ⟨{ a with com := .fin es flag rest }, ?_, { r with com := rfl, done := rfl }⟩
          cases hfl : flag with
          | true => rfl
          | false =>
            cases ho : e.off with
            | none => rfl
            | some o => exact absurd ho (hno o hfl)
      · simp at h
    · rename_i p flag tp rest hc
      cases h
      have hac : a.com = .fin [] flag (tp :: rest) ∧ p = a.lo % c.poolSize := by
        have := hcase _ hc
        revert this; cases a.com <;> simp [toCom]
        intro h1 h2 h3 h4; exact ⟨⟨h2, h3, h4⟩, h1.symm⟩
      obtain ⟨hac, rfl⟩ := hac
      refine ⟨_, by unfold astep; simp only; rw [hac], ?_⟩
      refine { r with com := ?_ }
      simp only [toCom]
      rw [r.nodes a.lo (Nat.le_refl _) (by omega)]
    · simp at h
  | endTxn order =>
    unfold step at h
    simp only at h
    split at h
    · rename_i p flag hc
      have hac : a.com = .fin [] flag [] ∧ p = a.lo % c.poolSize := by
        have := hcase _ hc
        revert this; cases a.com <;> simp [toCom]
        intro h1 h2 h3 h4; exact ⟨⟨h2, h3, h4⟩, h1.symm⟩
      obtain ⟨hac, rfl⟩ := hac
      have hst := B.st
      rw [hac] at hst
      have hlg := lo_le_gen B hst
      have hnl := r.nodes a.lo (Nat.le_refl _) (by omega)
      split at h
      · rename_i hord
        cases h
        rw [hnl] at hord
        refine ⟨_, by unfold astep; simp only; rw [hac]; simp only; rw [if_pos hord], ?_⟩
        refine { r with ended := ?_, com := rfl }
        simp only
        rw [r.ended, hnl, r.nodeGen a.lo (Nat.le_refl _) hlg]
      · simp at h
    · simp at h
  | release =>
    unfold step at h
    simp only at h
    split at h
    · rename_i p tp rest hc
      cases h
      have hac : a.com = .relinq (tp :: rest) ∧ p = a.lo % c.poolSize := by
        have := hcase _ hc
        revert this; cases a.com <;> simp [toCom]
        intro h1 h2; exact ⟨h2, h1.symm⟩
      obtain ⟨hac, rfl⟩ := hac
      refine ⟨_, by unfold astep; simp only; rw [hac], ?_⟩
      have r1 := sim_relinquish hn B r tp
      refine { r1 with com := ?_ }
      have : (arelinquish c.poolSize a tp).lo = a.lo := by unfold arelinquish; split <;> simp [aflushPartition]
      rw [show ({ arelinquish c.poolSize a tp with com := ACom.relinq rest } : A).lo = a.lo from this]
      rfl
    · rename_i p hc
      cases h
      have hac : a.com = .relinq [] ∧ p = a.lo % c.poolSize := by
        have := hcase _ hc
        revert this; cases a.com <;> simp [toCom]
        intro h1 h2; exact ⟨h2, h1.symm⟩
      obtain ⟨hac, rfl⟩ := hac
      refine ⟨_, by unfold astep; simp only; rw [hac], ?_⟩
      refine { r with com := rfl, nodes := ?_ }
      simp only
      rw [r.nodes a.lo (Nat.le_refl _) (by omega)]
      exact sim_nodes r.nodes (Nat.le_refl _) (by omega) _
    · simp at h
  | giveBack =>
    unfold step at h
    simp only at h
    split at h
    · rename_i p hc
      cases h
      have hac : a.com = .back ∧ p = a.lo % c.poolSize := by
        have := hcase _ hc
        revert this; cases a.com <;> simp [toCom]
        intro h; exact h.symm
      obtain ⟨hac, rfl⟩ := hac
      refine ⟨_, by unfold astep; simp only; rw [hac], ?_⟩
      have hmod : (a.lo + c.poolSize) % c.poolSize = a.lo % c.poolSize := Nat.add_mod_right _ _
      refine { r with com := rfl, nodes := ?_, free := ?_, nodeGen := ?_ }
      · intro g h1 h2
        simp only at h1 h2 ⊢
        by_cases e : g = a.lo + c.poolSize
        · subst e
          rw [hmod, r.nodes a.lo (Nat.le_refl _) (by omega), B.clean hac, B.fut _ hw.2]
        · exact r.nodes g (by omega) (by omega)
      · simp only
        rw [r.free, show a.lo + 1 + c.poolSize - (a.gen + 1) = (a.lo + c.poolSize - (a.gen + 1)) + 1 by omega,
          List.range'_concat, List.map_append]
        simp only [List.map_cons, List.map_nil]
        rw [show a.gen + 1 + 1 * (a.lo + c.poolSize - (a.gen + 1)) = a.lo + c.poolSize by omega, hmod]
      · intro g h1 h2
        simp only at h1 h2 ⊢
        exact r.nodeGen g (by omega) h2
    · simp at h
  | commitFail cont =>
    unfold step at h
    simp only at h
    split at h
    · rename_i p cur flag rest hc
      cases h
      have hac : a.com = .fin cur flag rest := by
        have := hcase _ hc
        revert this; cases a.com <;> simp [toCom]
      cases cont with
      | true => exact absurd rfl hl
      | false => exact ⟨{ a with com := .stopped }, by unfold astep; simp only; rw [hac]; rfl, { r with com := rfl }⟩
    · simp at h
  | asyncFail =>
    unfold step at h
    simp only at h
    split at h
    · rename_i hc
      cases h
      have hac : a.com = .idle := by
        have := hcase _ hc
        revert this; cases a.com <;> simp [toCom]
      exact ⟨{ a with com := .stopped }, by unfold astep; simp only; rw [hac], { r with com := rfl }⟩
    · simp at h
  | produce e x =>
    unfold step at h
    simp only at h
    split at h
    · rename_i p hp
      split at h
      · rename_i hh
        cases h
        rw [r.asg, Option.map_eq_some_iff] at hp
        obtain ⟨g, hg, rfl⟩ := hp
        rw [r.added, r.done] at hh
        refine ⟨_, by unfold astep; simp only; rw [hg]; simp only; rw [if_pos hh], ?_⟩
        obtain ⟨⟨e', g'⟩, he', rfl⟩ := List.mem_map.1 hh.1
        obtain ⟨e2, k1, k2⟩ := B.asg1 _ _ hg
        obtain ⟨rfl, rfl⟩ := added_unique B k1 he' k2
        obtain ⟨m1, m2, m3⟩ := alive B he' hh.2
        exact sim_produce B O r _ m1 m2
      · simp at h
    · simp at h
  | complete e =>
    unfold step at h
    simp only at h
    split at h
    · rename_i p hp
      split at h
      · rename_i hh
        cases h
        rw [r.asg, Option.map_eq_some_iff] at hp
        obtain ⟨g, hg, rfl⟩ := hp
        rw [r.added, r.done] at hh
        refine ⟨_, by unfold astep; simp only; rw [hg]; simp only; rw [if_pos hh], ?_⟩
        exact { r with done := by simp only; rw [r.done] }
      · simp at h
    · simp at h

theorem sim_reach {c : Cfg} (hn : 0 < c.poolSize) {s : Pool} (h : Reach c s) :
    ∃ a, AReach c a ∧ R c.poolSize s a := by
  induction h with
  | init => exact ⟨_, .init, sim_init hn⟩
  | step l _ hl hs ih =>
    obtain ⟨a, h1, r⟩ := ih
    obtain ⟨a', h2, r'⟩ := sim_step hn l hl (base_reach hn h1) (order_reach hn h1) r hs
    exact ⟨a', .step l h1 h2, r'⟩

end Verif.Eos
