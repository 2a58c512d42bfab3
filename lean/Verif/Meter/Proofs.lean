import Verif.Meter.Model
import Verif.Eos.Proofs
/-
Proofs for C83.
-/
set_option linter.unusedSimpArgs false
namespace Verif.Meter
open Verif.Eos

/-- The sizes of the records of a transaction, added up. -/
def tot (size : Rec → Nat) (l : List Out) (g : Nat) : Nat := ((l.filter fun o => o.gen = g).map fun o => size o.r).sum

/-- The sizes of the records in flight of a node, added up. -/
def fly (size : Rec → Nat) (l : List (Nat × Out)) (p : Nat) : Nat := ((l.filter fun x => x.1 = p).map fun x => size x.2.r).sum

theorem tot_append (size : Rec → Nat) (l m : List Out) (g : Nat) : tot size (l ++ m) g = tot size l g + tot size m g := by
  simp [tot, List.filter_append]

theorem fly_append (size : Rec → Nat) (l m : List (Nat × Out)) (p : Nat) :
    fly size (l ++ m) p = fly size l p + fly size m p := by
  simp [fly, List.filter_append]

theorem fly_none (size : Rec → Nat) {l : List (Nat × Out)} {p : Nat} (h : ∀ x ∈ l, x.1 ≠ p) : fly size l p = 0 := by
  unfold fly
  rw [List.filter_eq_nil_iff.2]
  · rfl
  · intro x hx; simp [h x hx]

theorem tot_none (size : Rec → Nat) {l : List Out} {g : Nat} (h : ∀ o ∈ l, o.gen ≠ g) : tot size l g = 0 := by
  unfold tot
  rw [List.filter_eq_nil_iff.2]
  · rfl
  · intro x hx; simp [h x hx]

theorem fly_all (size : Rec → Nat) (m : List Out) (p : Nat) :
    fly size (m.map fun o => (p, o)) p = (m.map fun o => size o.r).sum := by
  unfold fly
  rw [List.filter_eq_self.2]
  · rw [List.map_map]; rfl
  · intro x hx
    obtain ⟨o, _, rfl⟩ := List.mem_map.1 hx
    simp

theorem tot_all (size : Rec → Nat) {m : List Out} {g : Nat} (h : ∀ o ∈ m, o.gen = g) : tot size m g = (m.map fun o => size o.r).sum := by
  unfold tot
  rw [List.filter_eq_self.2]
  intro x hx; simp [h x hx]

theorem fly_erase (size : Rec → Nat) {l : List (Nat × Out)} {i : Nat} {x : Nat × Out} (h : l[i]? = some x) (p : Nat) :
    fly size l p = fly size (l.eraseIdx i) p + if x.1 = p then size x.2.r else 0 := by
  induction l generalizing i with
  | nil => simp at h
  | cons y l ih =>
    cases i with
    | zero =>
      simp only [List.getElem?_cons_zero, Option.some.injEq] at h
      subst h
      simp only [List.eraseIdx_cons_zero]
      unfold fly
      by_cases e : y.1 = p
      · simp [e, Nat.add_comm]
      · simp [e]
    | succ i =>
      simp only [List.getElem?_cons_succ] at h
      have := ih h
      simp only [List.eraseIdx_cons_succ]
      unfold fly at this ⊢
      by_cases e : y.1 = p
      · simp [e]; omega
      · simp [e]; omega

/-- Lists that agree on every partition of a transaction have the same records of it. -/
theorem perm_of_parts {l m : List Out} {g : Nat} (h : ∀ tp, ofTp l g tp = ofTp m g tp) :
    (l.filter fun o => o.gen = g).Perm (m.filter fun o => o.gen = g) := by
  rw [List.perm_iff_count]
  intro o
  by_cases e : o.gen = g
  · have h1 : ∀ k : List Out, (k.filter fun o => o.gen = g).count o = (ofTp k g o.part).count o := by
      intro k
      unfold ofTp
      rw [List.count_filter (by simp [e]), List.count_filter (by simp [e])]
    rw [h1, h1, h]
  · have h1 : ∀ k : List Out, (k.filter fun o => o.gen = g).count o = 0 := by
      intro k
      rw [List.count_eq_zero]
      intro hm
      exact e (by simpa using (List.mem_filter.1 hm).2)
    rw [h1, h1]

theorem tot_perm (size : Rec → Nat) {l m : List Out} {g : Nat}
    (h : (l.filter fun o => o.gen = g).Perm (m.filter fun o => o.gen = g)) : tot size l g = tot size m g := by
  unfold tot
  exact (h.map _).sum_nat

/-- The phase of the commit loop, as far as the measures care. -/
def ph : ACom → Nat
  | .fin _ _ _ => 1
  | .relinq _ => 2
  | .back => 3
  | _ => 0

/-- When the first event of a transaction was added. -/
def firstOf (arr : List (Nat × Nat)) (g : Nat) : Option Nat := (arr.find? fun x => x.1 = g).map Prod.snd

theorem firstOf_snoc (arr : List (Nat × Nat)) (x : Nat × Nat) (g : Nat) :
    firstOf (arr ++ [x]) g = (firstOf arr g).or (if x.1 = g then some x.2 else none) := by
  unfold firstOf
  rw [List.find?_append]
  cases h : arr.find? (fun x => decide (x.1 = g)) with
  | none =>
    by_cases e : x.1 = g
    · simp [e]
    · simp [e]
  | some y => simp

theorem firstOf_none {arr : List (Nat × Nat)} {g : Nat} (h : ∀ x ∈ arr, x.1 ≠ g) : firstOf arr g = none := by
  unfold firstOf
  rw [List.find?_eq_none.2]
  · rfl
  · intro x hx; simp [h x hx]

/-- What a step gives to a client goes to the node of its transaction, which is alive. -/
theorem given_spec {c : Cfg} {s : Pool} {a a' : A} (l : Label) (B : Base c.poolSize a)
    (r : R c.poolSize s a) (h : astep c a l = some a') :
    ∃ m g, a'.sent = a.sent ++ m ∧ (m ≠ [] → a.lo ≤ g ∧ g ≤ a.gen ∧ (g = a.lo → ph a.com ≤ 1) ∧ sender c s l = g % c.poolSize) ∧
      ∀ o ∈ m, o.gen = g := by
  have hq : ∀ x : A, x.sent = a.sent → ∃ m g, x.sent = a.sent ++ m ∧
      (m ≠ [] → a.lo ≤ g ∧ g ≤ a.gen ∧ (g = a.lo → ph a.com ≤ 1) ∧ sender c s l = g % c.poolSize) ∧ ∀ o ∈ m, o.gen = g :=
    fun x hx => ⟨[], 0, by simp [hx], by simp, by simp⟩
  cases l with
  | produce e x =>
    unfold astep at h
    simp only at h
    split at h
    · rename_i g hg
      split at h
      · rename_i hh
        cases h
        obtain ⟨⟨e', g2⟩, he', rfl⟩ := List.mem_map.1 hh.1
        obtain ⟨e2, k1, k2⟩ := B.asg1 _ _ hg
        obtain ⟨rfl, rfl⟩ := added_unique B k1 he' k2
        have al := alive B he' hh.2
        unfold aproduce
        split
        · refine ⟨[⟨g, e2.part, .user x⟩], g, rfl, ?_, by simp⟩
          intro _
          refine ⟨al.1, al.2.1, ?_, ?_⟩
          · rintro rfl
            by_contra hc
            refine hh.2 (B.last ?_ _ he')
            unfold A.relinquished
            generalize a.com = cm at hc
            cases cm <;> simp [ph] at hc ⊢
          · simp only [sender, r.asg, hg]
            rfl
        · exact hq _ rfl
      · simp at h
    · simp at h
  | beginCommit order =>
    unfold astep at h
    simp only at h
    split at h
    · rename_i hc
      split at h
      · cases h
        have hst : a.st = a.lo + 1 := by have := B.st; rw [hc] at this; exact this
        refine ⟨_, a.lo, rfl, ?_, ?_⟩
        · intro _
          refine ⟨Nat.le_refl _, lo_le_gen B hst, fun _ => by rw [hc]; simp [ph], ?_⟩
          simp only [sender, r.com, hc, toCom]
        · intro o ho
          obtain ⟨b, _, rfl⟩ := List.mem_map.1 ho
          rfl
      · simp at h
    · simp at h
  | wait =>
    unfold astep at h
    simp only at h
    split at h
    · rename_i e es flag rest hc
      have hst : a.st = a.lo + 1 := by have := B.st; rw [hc] at this; exact this
      split at h
      · split at h
        · cases h
          unfold aproduce
          dsimp only
          split
          · refine ⟨[_], a.lo, rfl, ?_, ?_⟩
            · intro _
              refine ⟨Nat.le_refl _, lo_le_gen B hst, fun _ => by rw [hc]; simp [ph], ?_⟩
              simp only [sender, r.com, hc, toCom]
            · intro o ho
              rw [List.mem_singleton] at ho
              subst ho; rfl
          · exact hq _ rfl
        · cases h; exact hq _ rfl
      · simp at h
    · cases h; exact hq _ rfl
    · simp at h
  | release =>
    unfold astep at h
    simp only at h
    split at h
    · rename_i tp rest hc
      cases h
      have hfind : (ring c.poolSize (a.lo % c.poolSize)).find? (fun q => (s.nodes q).has tp) =
          ((List.range' (a.lo + 1) (c.poolSize - 1)).find? fun g => (a.nodes g).has tp).map (· % c.poolSize) := by
        rw [ring_eq, List.find?_map]
        congr 1
        apply find_congr
        intro g hg
        rw [List.mem_range'] at hg
        obtain ⟨i, h1, h2⟩ := hg
        simp only [Function.comp]
        rw [r.nodes g (by omega) (by omega)]
      unfold arelinquish
      cases hq' : (List.range' (a.lo + 1) (c.poolSize - 1)).find? (fun g => (a.nodes g).has tp) with
      | none => exact hq _ rfl
      | some q =>
        obtain ⟨q1, q2, q3, q4⟩ := find_range_some hq'
        have hqg : q ≤ a.gen := by
          by_contra hgt
          rw [B.fut q (by omega)] at q3
          simp [Node.new, Node.has] at q3
        refine ⟨_, q, rfl, ?_, ?_⟩
        · intro _
          refine ⟨by omega, hqg, fun e => by omega, ?_⟩
          simp only [sender, r.com, hc, toCom]
          rw [hfind, hq']
          rfl
        · intro o ho
          obtain ⟨b, _, rfl⟩ := List.mem_map.1 ho
          rfl
    · cases h; exact hq _ rfl
    · simp at h
  | _ =>
    unfold astep at h
    simp only at h
    repeat' split at h
    all_goals first
      | (cases h; exact hq _ rfl)
      | simp at h

theorem ended_sent' {n : Nat} {a : A} (B : Base n a) (O : Order n a) {g : Nat}
    (H : g < a.lo ∨ (g = a.lo ∧ a.relinquished ≠ none)) (tp : Nat) : ofTp a.sent g tp = ofTp a.calls g tp := by
  rcases H with h1 | ⟨rfl, h2⟩
  · exact O.flow g tp (.inl h1)
  · cases hh : (a.nodes a.lo).has tp with
    | false => exact O.flow _ tp (.inr (.inr hh))
    | true => exact O.flow _ tp (.inr (.inl (own_lo B O (relinq_st B h2) hh)))

/-- What is known of a metric that was sent. -/
def Good (size : Rec → Nat) (arr : List (Nat × Nat)) (now : Nat) (a : A) (m : TxnMetric) : Prop :=
  (m.gen, true) ∈ a.ended ∧ m.count = (a.calls.filter fun o => o.gen = m.gen).length ∧ m.bytes = tot size a.calls m.gen ∧
  m.partitions = ((evOf a.added m.gen).map Ev.part).dedup.length ∧ m.start ≤ m.execute ∧ m.execute ≤ m.fin ∧ m.fin ≤ now ∧
  firstOf arr m.gen = some m.start

/-- The transactions whose figures are due. -/
def due (a : A) : List (Nat × Bool) := if ph a.com = 2 then a.ended.dropLast else a.ended

/-- The invariant of the measures. -/
structure M (n : Nat) (size : Rec → Nat) (s : St) (a : A) : Prop where
  acct : ∀ g, a.lo ≤ g → g < a.lo + n → (g ≠ a.lo ∨ ph a.com ≠ 3) → s.bytes (g % n) + fly size s.flying (g % n) = tot size a.sent g
  zero : ph a.com = 3 → s.bytes (a.lo % n) = 0
  landed : 2 ≤ ph a.com → ∀ x ∈ s.flying, x.1 ≠ a.lo % n
  first : ∀ g, a.lo ≤ g → evOf a.added g ≠ [] → firstOf s.arrivals g = some (s.first (g % n))
  arr : s.arrivals.map Prod.fst = a.added.map Prod.snd
  past : ∀ p, s.first p ≤ s.now
  begun : s.begun ≤ s.now
  ord : ph a.com = 1 ∨ ph a.com = 2 → s.first (a.lo % n) ≤ s.begun
  parts : ph a.com = 2 → s.parts = ((evOf a.added a.lo).map Ev.part).dedup.length
  good : ∀ m ∈ s.metrics, Good size s.arrivals s.now a m
  list : s.on = true → s.metrics.map TxnMetric.gen = ((due a).filter Prod.snd).map Prod.fst
  off : s.on = false → s.metrics = []

theorem m_init {c : Cfg} (size : Rec → Nat) (on : Bool) (t : Nat) : M c.poolSize size (St.init c on t) A.init := by
  refine ⟨?_, ?_, ?_, ?_, ?_, ?_, ?_, ?_, ?_, ?_, ?_, ?_⟩ <;> simp [St.init, A.init, ph, fly, tot, evOf, due]

/-- Steps that do not change the measures, except that records are handed to a client. -/
theorem m_same {c : Cfg} {size : Rec → Nat} {s : St} {a a' : A} (hM : M c.poolSize size s a) (B : Base c.poolSize a)
    (pool' : Pool) (m : List Out) (g p : Nat) (h1 : a'.lo = a.lo) (h2 : a'.added = a.added) (h3 : a'.ended = a.ended)
    (h4 : a'.sent = a.sent ++ m) (h5 : m ≠ [] → a.lo ≤ g ∧ g ≤ a.gen ∧ (g = a.lo → ph a.com ≤ 1) ∧ p = g % c.poolSize)
    (h6 : ∀ o ∈ m, o.gen = g) (h7 : ph a'.com = ph a.com ∨ (ph a.com ≤ 1 ∧ ph a'.com = 0))
    (h8 : ∀ g ∈ a.ended.map Prod.fst, (a'.calls.filter fun o => o.gen = g) = a.calls.filter fun o => o.gen = g) :
    M c.poolSize size { s with pool := pool', flying := s.flying ++ m.map fun o => (p, o) } a' := by
  have hw := B.win.2
  have hfl : ∀ g', a.lo ≤ g' → g' < a.lo + c.poolSize →
      fly size (m.map fun o => (p, o)) (g' % c.poolSize) = tot size m g' := by
    intro g' hg1 hg2
    by_cases hm : m = []
    · subst hm; rfl
    · obtain ⟨k1, k2, k3, k4⟩ := h5 hm
      by_cases e : g' = g
      · subst e
        rw [← k4, fly_all, tot_all size h6]
      · rw [fly_none, tot_none]
        · intro o ho; rw [h6 o ho]; exact fun x => e x.symm
        · intro x hx
          obtain ⟨o, _, rfl⟩ := List.mem_map.1 hx
          rw [k4]
          intro hc
          exact e (mod_inj hg1 hg2 k1 (by omega) hc.symm)
  refine ⟨?_, ?_, ?_, ?_, ?_, ?_, ?_, ?_, ?_, ?_, ?_, ?_⟩
  · intro g' k1 k2 k3
    rw [h1] at k1 k2 k3
    dsimp only
    rw [fly_append, hfl g' k1 k2, h4, tot_append, ← hM.acct g' k1 k2 ?_]
    · omega
    · rcases k3 with k | k
      · exact .inl k
      · exact .inr (by omega)
  · intro k; rw [h1]; exact hM.zero (by omega)
  · intro k x hx
    rw [h1]
    rcases List.mem_append.1 hx with hx | hx
    · exact hM.landed (by omega) x hx
    · obtain ⟨o, ho, rfl⟩ := List.mem_map.1 hx
      obtain ⟨k1, k2, k3, k4⟩ := h5 (List.ne_nil_of_mem ho)
      intro hc
      dsimp only at hc
      rw [k4] at hc
      have := mod_inj k1 (by omega) (Nat.le_refl a.lo) (by omega) hc
      have := k3 this
      omega
  · intro g' k1 k2
    rw [h1] at k1
    rw [h2] at k2
    exact hM.first g' k1 k2
  · rw [h2]; exact hM.arr
  · exact hM.past
  · exact hM.begun
  · intro k; rw [h1]; exact hM.ord (by omega)
  · intro k; rw [h1, h2]; exact hM.parts (by omega)
  · intro x hx
    obtain ⟨g1, g2, g3, g4⟩ := hM.good x hx
    have hmem : x.gen ∈ a.ended.map Prod.fst := List.mem_map.2 ⟨_, g1, rfl⟩
    refine ⟨by rw [h3]; exact g1, by rw [h8 _ hmem]; exact g2, ?_, by rw [h2]; exact g4⟩
    unfold tot
    rw [h8 _ hmem]
    exact g3
  · intro k
    have : due a' = due a := by
      unfold due
      rw [h3]
      by_cases e : ph a.com = 2
      · rw [if_pos e, if_pos (by omega)]
      · rw [if_neg e, if_neg (by omega)]
    rw [this]
    exact hM.list k
  · exact hM.off

theorem note_same {s s1 : St} {l : Label} (h : note s l = some s1) (h1 : ∀ e, l ≠ .add e) (h2 : ∀ o, l ≠ .beginCommit o)
    (h3 : ∀ o, l ≠ .endTxn o) (h4 : l ≠ .release ∨ ∀ p, s.pool.com ≠ .relinq p []) : s1 = s := by
  unfold note at h
  split at h
  · exact absurd rfl (h1 _)
  · exact absurd rfl (h2 _)
  · exact absurd rfl (h3 _)
  · rename_i p hc
    rcases h4 with h4 | h4
    · exact absurd rfl h4
    · exact absurd hc (h4 p)
  · cases h; rfl

theorem sent_gen {n : Nat} {a : A} (B : Base n a) (O : Order n a) {o : Out} (h : o ∈ a.sent) : o.gen ≤ a.gen := by
  obtain ⟨e, h1, _⟩ := O.made o (O.sub o h)
  exact B.le _ h1

theorem m_step {c : Cfg} (hn : 0 < c.poolSize) {size : Rec → Nat} {s s' : St} {a : A} (l : Label) (hl : l ≠ .commitFail true)
    (B : Base c.poolSize a) (O : Order c.poolSize a) (F : Fin a) (r : R c.poolSize s.pool a) (hM : M c.poolSize size s a)
    (h : step c size s (.pool l) = some s') :
    ∃ a', astep c a l = some a' ∧ R c.poolSize s'.pool a' ∧ M c.poolSize size s' a' := by
  have hw := B.win
  unfold step at h
  simp only at h
  split at h
  · simp at h
  rename_i pool' hp
  obtain ⟨a', ha, r'⟩ := sim_step hn l hl B O r hp
  obtain ⟨s1, hs1, rfl⟩ := Option.map_eq_some_iff.1 h
  refine ⟨a', ha, r', ?_⟩
  obtain ⟨m, g, hm1, hm2, hm3⟩ := given_spec l B r ha
  have hgiven : given s.pool pool' = m := by
    unfold given
    rw [r'.sent, r.sent, hm1, List.drop_left]
  rw [hgiven]
  have hfroz := fun g hg => frozen l B F ha (g := g) hg
  have hcalls : ∀ g ∈ a.ended.map Prod.fst, (a'.calls.filter fun o => o.gen = g) = a.calls.filter fun o => o.gen = g :=
    fun g hg => (hfroz g hg).1
  -- steps that only hand records over
  have quiet : s1 = s → a'.lo = a.lo → a'.added = a.added → a'.ended = a.ended →
      (ph a'.com = ph a.com ∨ (ph a.com ≤ 1 ∧ ph a'.com = 0)) →
      M c.poolSize size { s1 with pool := pool', flying := s1.flying ++ m.map fun o => (sender c s.pool l, o) } a' := by
    rintro rfl h1 h2 h3 h4
    exact m_same hM B pool' m g _ h1 h2 h3 hm1 hm2 hm3 h4 hcalls
  cases l with
  | add e =>
    unfold astep at ha
    simp only at ha
    split at ha
    · simp at ha
    · rename_i hf hc
      split at ha
      · simp at ha
      · cases ha
        have hm : m = [] := by
          dsimp only at hm1
          simpa using hm1.symm
        subst hm
        simp only [List.map_nil, List.append_nil]
        unfold note at hs1
        simp only [Option.some.injEq] at hs1
        subst hs1
        have hlg : a.lo ≤ a.gen := by have := hw.1; rw [top_of_ne (by rw [hf]; simp)] at this; exact this
        have hnode : s.pool.nodes s.pool.onDeck = a.nodes a.gen := by rw [r.onDeck]; exact r.nodes _ hlg (by omega)
        have hne : ph a.com ≠ 0 → a.lo < a.gen := by
          intro h0
          refine lo_lt_gen B (by rw [hf]; simp) ?_
          have := B.st
          generalize a.com = cm at this h0
          cases cm <;> simp [ph] at h0 this <;> exact this
        have hevs : evOf (a.added ++ [(e, a.gen)]) a.gen = evOf a.added a.gen ++ [e] := by rw [evOf_snoc]; simp
        have hevo : ∀ g, g ≠ a.gen → evOf (a.added ++ [(e, a.gen)]) g = evOf a.added g := by
          intro g hg; rw [evOf_snoc]; simp [hg]
        have hcnt : (s.pool.nodes s.pool.onDeck).cnt = (evOf a.added a.gen).length := by
          rw [hnode]
          apply B.cnt _ hlg
          by_cases h3 : ph a.com = 0
          · right; intro hb; rw [hb] at h3; simp [ph] at h3
          · left; have := hne h3; omega
        have harr : ∀ g, firstOf s.arrivals g = none ↔ evOf a.added g = [] := by
          intro g
          have h1 : (∃ x ∈ s.arrivals, x.1 = g) ↔ ∃ y ∈ a.added, y.2 = g := by
            have h2 : g ∈ s.arrivals.map Prod.fst ↔ g ∈ a.added.map Prod.snd := by rw [hM.arr]
            simpa [List.mem_map] using h2
          constructor
          · intro hno
            apply evOf_nil
            intro y hy he
            obtain ⟨x, hx, hx'⟩ := h1.2 ⟨y, hy, he⟩
            unfold firstOf at hno
            rw [Option.map_eq_none_iff, List.find?_eq_none] at hno
            exact absurd (by simp [hx']) (hno x hx)
          · intro hno
            apply firstOf_none
            intro x hx he
            obtain ⟨y, hy, hy'⟩ := h1.1 ⟨x, hx, he⟩
            have : y.1 ∈ evOf a.added g := mem_evOf.2 (by rw [← hy']; exact hy)
            rw [hno] at this
            simp at this
        refine ⟨hM.acct, hM.zero, hM.landed, ?_, ?_, ?_, hM.begun, ?_, ?_, ?_, hM.list, hM.off⟩
        · intro g k1 k2
          dsimp only at k1 k2 ⊢
          rw [r.gen, firstOf_snoc]
          by_cases e1 : g = a.gen
          · subst e1
            by_cases e2 : evOf a.added a.gen = []
            · have h0 : (s.pool.nodes s.pool.onDeck).cnt = 0 := by rw [hcnt, e2]; rfl
              rw [(harr _).2 e2, if_pos rfl, if_pos h0, r.onDeck, upd_same]
              rfl
            · have h0 : ¬ (s.pool.nodes s.pool.onDeck).cnt = 0 := by rw [hcnt]; simpa using e2
              rw [hM.first _ k1 e2, if_neg h0]
              rfl
          · rw [hevo g e1] at k2
            rw [hM.first g k1 k2, Option.some_or]
            congr 1
            by_cases e2 : (s.pool.nodes s.pool.onDeck).cnt = 0
            · rw [if_pos e2]
              by_cases e3 : g < a.lo + c.poolSize
              · rw [upd_ne]
                rw [r.onDeck]
                intro hc
                exact e1 (mod_inj k1 e3 hlg (by omega) hc)
              · exfalso
                obtain ⟨x, hx⟩ := List.exists_mem_of_ne_nil _ k2
                have := B.le _ (mem_evOf.1 hx)
                dsimp only at this
                omega
            · rw [if_neg e2]
        · simp [hM.arr, r.gen]
        · intro p
          dsimp only
          split
          · by_cases e1 : p = s.pool.onDeck
            · subst e1; rw [upd_same]
            · rw [upd_ne _ _ e1]; exact hM.past p
          · exact hM.past p
        · intro k
          dsimp only at k ⊢
          have hlt := hne (by omega)
          have : (if (s.pool.nodes s.pool.onDeck).cnt = 0 then upd s.first s.pool.onDeck s.now else s.first) (a.lo % c.poolSize) =
              s.first (a.lo % c.poolSize) := by
            split
            · rw [upd_ne]
              rw [r.onDeck]
              intro hc
              have := mod_inj (Nat.le_refl a.lo) (by omega) hlg (by omega) hc
              omega
            · rfl
          rw [this]
          exact hM.ord k
        · intro k
          dsimp only at k ⊢
          have hlt := hne (by omega)
          rw [hevo _ (by omega)]
          exact hM.parts k
        · intro x hx
          obtain ⟨g1, g2, g3, g4, g5, g6, g7, g8⟩ := hM.good x hx
          have hmem : x.gen ∈ a.ended.map Prod.fst := List.mem_map.2 ⟨_, g1, rfl⟩
          have hne' : x.gen ≠ a.gen := by
            have := (hfroz _ hmem).2.1
            intro hc
            rw [← hc] at this
            simp at this
          refine ⟨g1, g2, g3, by dsimp only; rw [hevo _ hne']; exact g4, g5, g6, g7, ?_⟩
          dsimp only
          rw [firstOf_snoc, g8]
          rfl
    · simp at ha
  | beginCommit order =>
    have hs1' : ∃ p, s.pool.com = .begun p ∧ s1 = { s with begun := s.now } := by
      unfold astep at ha
      simp only at ha
      split at ha
      · rename_i hc
        have hcom : s.pool.com = .begun (a.lo % c.poolSize) := by rw [r.com, hc]; rfl
        unfold note at hs1
        rw [hcom] at hs1
        simp only [Option.some.injEq] at hs1
        exact ⟨_, hcom, hs1.symm⟩
      · simp at ha
    obtain ⟨p, _, rfl⟩ := hs1'
    unfold astep at ha
    simp only at ha
    split at ha
    · rename_i hc
      split at ha
      · cases ha
        have hM' : M c.poolSize size { s with pool := pool', flying := s.flying ++ m.map fun o => (sender c s.pool (.beginCommit order), o) }
            { abeginCommit a with com := .idle } :=
          m_same hM B pool' m g _ rfl rfl rfl hm1 hm2 hm3 (by right; rw [hc]; simp [ph]) (fun _ _ => rfl)
        have hd : ∀ x, due { abeginCommit a with com := .fin [] false x } = due { abeginCommit a with com := .idle } := fun _ => rfl
        refine ⟨fun g k1 k2 _ => hM'.acct g k1 k2 (.inr (by simp [ph])), fun k => by simp [ph] at k, fun k => by simp [ph] at k,
          hM'.first, hM'.arr, hM'.past, Nat.le_refl _, fun _ => hM'.past _, fun k => by simp [ph] at k, hM'.good,
          fun k => by rw [hd]; exact hM'.list k, hM'.off⟩
      · simp at ha
    · simp at ha
  | endTxn order =>
    unfold astep at ha
    simp only at ha
    split at ha
    · rename_i f hc
      split at ha
      · rename_i hord
        cases ha
        have hm : m = [] := by dsimp only at hm1; simpa using hm1.symm
        subst hm
        simp only [List.map_nil, List.append_nil]
        have hst : a.st = a.lo + 1 := by have := B.st; rw [hc] at this; exact this
        have hcom : s.pool.com = .fin (a.lo % c.poolSize) [] f [] := by rw [r.com, hc]; rfl
        have hnode : s.pool.nodes (a.lo % c.poolSize) = a.nodes a.lo := r.nodes _ (Nat.le_refl _) (by omega)
        unfold note at hs1
        rw [hcom] at hs1
        simp only at hs1
        split at hs1
        · simp at hs1
        rename_i hfly
        cases hs1
        have hph : ph a.com = 1 := by rw [hc]; rfl
        have hdue : due a = a.ended := by unfold due; rw [if_neg (by omega)]
        refine ⟨fun g k1 k2 _ => hM.acct g k1 k2 (.inr (by omega)), fun k => by simp [ph] at k, ?_, hM.first, hM.arr, hM.past, hM.begun,
          fun _ => hM.ord (.inl hph), ?_, ?_, ?_, hM.off⟩
        · intro _ x hx hxe
          apply hfly
          rw [List.any_eq_true]
          exact ⟨x, hx, by simpa using hxe⟩
        · intro _
          dsimp only
          rw [hnode]
          unfold Node.parts
          rw [B.evs a.lo (Nat.le_refl _) (.inr (by unfold A.relinquished; rw [hc]))]
        · intro x hx
          obtain ⟨g1, g2⟩ := hM.good x hx
          exact ⟨List.mem_append.2 (.inl g1), g2⟩
        · intro k
          rw [hM.list k, hdue]
          simp [due, ph]
      · simp at ha
    · simp at ha
  | release =>
    have ha0 := ha
    unfold astep at ha
    simp only at ha
    split at ha
    · rename_i tp rest hc
      cases ha
      have hcom : s.pool.com = .relinq (a.lo % c.poolSize) (tp :: rest) := by rw [r.com, hc]; rfl
      have hfr : (arelinquish c.poolSize a tp).lo = a.lo ∧
          (arelinquish c.poolSize a tp).added = a.added ∧ (arelinquish c.poolSize a tp).ended = a.ended := by
        unfold arelinquish; split <;> simp [aflushPartition]
      refine quiet (note_same hs1 (by simp) (by simp) (by simp) (.inr ?_)) hfr.1 hfr.2.1 hfr.2.2 (.inl (by rw [hc]; rfl))
      intro p; rw [hcom]; simp
    · rename_i hc
      cases ha
      have hm : m = [] := by dsimp only at hm1; simpa using hm1.symm
      subst hm
      simp only [List.map_nil, List.append_nil]
      have hst : a.st = a.lo + 1 := by have := B.st; rw [hc] at this; exact this
      have hlg := lo_le_gen B hst
      have hcom : s.pool.com = .relinq (a.lo % c.poolSize) [] := by rw [r.com, hc]; rfl
      have hnode : s.pool.nodes (a.lo % c.poolSize) = a.nodes a.lo := r.nodes _ (Nat.le_refl _) (by omega)
      have hng : s.pool.nodeGen (a.lo % c.poolSize) = a.lo := r.nodeGen _ (Nat.le_refl _) hlg
      unfold note at hs1
      rw [hcom] at hs1
      simp only [Option.some.injEq] at hs1
      subst hs1
      have hph : ph a.com = 2 := by rw [hc]; rfl
      have hpc := F.pc a.lo (Nat.le_refl _) (.inl (by rw [hc]; simp))
      have hrel : a.relinquished = some [] := by unfold A.relinquished; rw [hc]
      -- the last entry of `ended` is the one of this transaction
      have hend : ∃ b, a.ended = a.ended.dropLast ++ [(a.lo, b)] := by
        have h1 := F.ended
        rw [hrel, if_neg (by simp)] at h1
        have hne : a.ended ≠ [] := by intro h0; rw [h0] at h1; simp at h1
        have h2 := List.dropLast_append_getLast hne
        have h3 : (a.ended.getLast hne).1 = a.lo := by
          have h4 : (a.ended.map Prod.fst).getLast (by simpa using hne) = a.lo := by
            simp only [h1]
            rw [List.getLast_eq_getElem]
            simp
          rw [List.getLast_map] at h4
          exact h4
        refine ⟨(a.ended.getLast hne).2, ?_⟩
        rw [← h3]
        exact h2.symm
      obtain ⟨b, hb⟩ := hend
      have hbm : (a.lo, b) ∈ a.ended := by rw [hb]; simp
      have hbf : b = true ↔ 0 < (a.nodes a.lo).produceCnt := by
        rw [F.flag _ _ hbm, hpc, List.length_pos_iff_exists_mem]
        simp [List.mem_filter]
      have hdue : due a = a.ended.dropLast := by unfold due; rw [if_pos hph]
      have hsend := fun tp => ended_sent' B O (g := a.lo) (.inr ⟨rfl, by rw [hrel]; simp⟩) tp
      have htot : tot size a.sent a.lo = tot size a.calls a.lo := tot_perm size (perm_of_parts hsend)
      have hfl0 : fly size s.flying (a.lo % c.poolSize) = 0 := fly_none size (hM.landed (by omega))
      have hbytes : s.bytes (a.lo % c.poolSize) = tot size a.calls a.lo := by
        have := hM.acct a.lo (Nat.le_refl _) (by omega) (.inr (by omega))
        omega
      refine ⟨?_, ?_, ?_, hM.first, hM.arr, hM.past, hM.begun, fun k => by simp [ph] at k, fun k => by simp [ph] at k, ?_, ?_, ?_⟩
      · intro g k1 k2 k3
        dsimp only at k1 k2 k3 ⊢
        have hgl : g ≠ a.lo := by
          rcases k3 with k | k
          · exact k
          · simp [ph] at k
        rw [upd_ne]
        · exact hM.acct g k1 k2 (.inl hgl)
        · intro hc'
          exact hgl (mod_inj k1 k2 (Nat.le_refl _) (by omega) hc')
      · intro _
        dsimp only
        rw [upd_same]
      · intro _
        exact hM.landed (by omega)
      · intro x hx
        have hold : ∀ x ∈ s.metrics, Good size s.arrivals s.now
            { a with nodes := upd a.nodes a.lo (a.nodes a.lo).clear, com := ACom.back } x := by
          intro x hx
          exact hM.good x hx
        dsimp only at hx ⊢
        split at hx
        · rename_i hcond
          rcases List.mem_append.1 hx with hx | hx
          · exact hold x hx
          · rw [List.mem_singleton] at hx
            subst hx
            rw [hnode] at hcond
            have hbt : b = true := hbf.2 hcond.2
            have hev : evOf a.added a.lo ≠ [] := by
              obtain ⟨o, ho, hog⟩ := (F.flag _ _ hbm).1 hbt
              obtain ⟨e, he, _⟩ := O.made o ho
              rw [hog] at he
              exact List.ne_nil_of_mem (mem_evOf.2 he)
            refine ⟨?_, ?_, ?_, ?_, ?_, ?_, ?_, ?_⟩
            · simp only [metricOf, hng]; rw [← hbt]; exact hbm
            · simp only [metricOf, hng, hnode]; exact hpc
            · simp only [metricOf, hng]; exact hbytes
            · simp only [metricOf, hng]; exact hM.parts hph
            · simp only [metricOf]; exact hM.ord (.inr hph)
            · simp only [metricOf]; exact hM.begun
            · simp only [metricOf]; exact Nat.le_refl _
            · simp only [metricOf, hng]; exact hM.first _ (Nat.le_refl _) hev
        · exact hold x hx
      · intro k
        have hl2 := hM.list k
        rw [hdue] at hl2
        have hdue' : due { a with nodes := upd a.nodes a.lo (a.nodes a.lo).clear, com := ACom.back } = a.ended := by simp [due, ph]
        rw [hdue']
        dsimp only at k ⊢
        rw [hb, List.filter_append, List.map_append, ← hl2]
        split
        · rename_i hcond
          rw [hnode] at hcond
          rw [hbf.2 hcond.2]
          simp [metricOf, hng]
        · rename_i hcond
          have : b = false := by
            cases hbb : b with
            | false => rfl
            | true =>
              exfalso
              apply hcond
              rw [hnode]
              exact ⟨k, hbf.1 hbb⟩
          rw [this]
          simp
      · intro k
        dsimp only at k ⊢
        rw [if_neg (by rw [k]; simp)]
        exact hM.off k
    · simp at ha
  | giveBack =>
    have hs1' : s1 = s := note_same hs1 (by simp) (by simp) (by simp) (.inl (by simp))
    subst hs1'
    unfold astep at ha
    simp only at ha
    split at ha
    · rename_i hc
      cases ha
      have hm : m = [] := by dsimp only at hm1; simpa using hm1.symm
      subst hm
      simp only [List.map_nil, List.append_nil]
      have hph : ph a.com = 3 := by rw [hc]; rfl
      refine ⟨?_, fun k => by simp [ph] at k, fun k => by simp [ph] at k, fun g k1 k2 => hM.first g (by dsimp only at k1; omega) k2, hM.arr, hM.past,
        hM.begun, fun k => by simp [ph] at k, fun k => by simp [ph] at k, hM.good, ?_, hM.off⟩
      · intro g k1 k2 _
        dsimp only at k1 k2 ⊢
        by_cases e : g < a.lo + c.poolSize
        · exact hM.acct g (by omega) e (.inl (by omega))
        · have hg : g = a.lo + c.poolSize := by omega
          subst hg
          rw [Nat.add_mod_right, hM.zero hph, fly_none size (hM.landed (by omega)), tot_none]
          intro o ho
          have := sent_gen B O ho
          omega
      · intro k
        have h1 : due { a with lo := a.lo + 1, com := ACom.idle } = a.ended := by simp [due, ph]
        have h2 : due a = a.ended := by unfold due; rw [if_neg (by omega)]
        rw [h1, ← h2]
        exact hM.list k
    · simp at ha
  | wait =>
    refine quiet (note_same hs1 (by simp) (by simp) (by simp) (.inl (by simp))) ?_ ?_ ?_ ?_
    all_goals
      unfold astep at ha
      simp only at ha
      split at ha
      · rename_i hc
        split at ha
        · split at ha
          · cases ha
            first
              | exact (aproduce_frame _ _ _ _).1
              | exact (aproduce_frame _ _ _ _).2.2.2.2.2.2.2.2.1
              | exact (aproduce_frame _ _ _ _).2.2.2.2.2.2.2.2.2.1
              | (left; rw [hc]; rfl)
          · cases ha
            first
              | rfl
              | (left; rw [hc]; rfl)
        · simp at ha
      · rename_i hc
        cases ha
        first
          | rfl
          | (left; rw [hc]; rfl)
      · simp at ha
  | produce e x =>
    refine quiet (note_same hs1 (by simp) (by simp) (by simp) (.inl (by simp))) ?_ ?_ ?_ ?_
    all_goals
      unfold astep at ha
      simp only at ha
      split at ha
      · split at ha
        · cases ha
          first
            | exact (aproduce_frame _ _ _ _).1
            | exact (aproduce_frame _ _ _ _).2.2.2.2.2.2.2.2.1
            | exact (aproduce_frame _ _ _ _).2.2.2.2.2.2.2.2.2.1
            | (left; rw [(aproduce_frame _ _ _ _).2.2.2.2.2.1])
        · simp at ha
      · simp at ha
  | _ =>
    refine quiet (note_same hs1 (by simp) (by simp) (by simp) (.inl (by simp))) ?_ ?_ ?_ ?_
    all_goals
      unfold astep at ha
      simp only at ha
      repeat' split at ha
      all_goals first
        | (cases ha; rfl)
        | (cases ha; left; rfl)
        | (rename_i hc; cases ha; left; rw [hc]; rfl)
        | (rename_i hc _; cases ha; left; rw [hc]; rfl)
        | (rename_i hc; cases ha; right; rw [hc]; simp [ph])
        | (rename_i hc _; cases ha; right; rw [hc]; simp [ph])
        | simp at ha

end Verif.Meter
