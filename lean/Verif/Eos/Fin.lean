import Verif.Eos.Order
/-
The third invariant of the pool: the offset records of each transaction, and how the transactions ended.
-/
set_option linter.unusedSectionVars false
set_option linter.unusedSimpArgs false
namespace Verif.Eos

/-- The content of an offset record (`streams/commit_log.go:76-82`). -/
def Rec.commit? : Rec → Option (Nat × Nat)
  | .commit p o => some (p, o)
  | .user _ => none

/-- The offset records of a transaction for a partition. -/
def commits (l : List Out) (g tp : Nat) : List (Nat × Nat) := (ofTp l g tp).filterMap fun o => o.r.commit?

theorem commits_append (l m : List Out) (g tp : Nat) : commits (l ++ m) g tp = commits l g tp ++ commits m g tp := by
  simp [commits, ofTp_append]

/-- The offset of the newest real event of a partition in a list of events. -/
def newest (evs : List Ev) (tp : Nat) : Option Nat := ((evs.filter fun e => e.part = tp).reverse.filterMap Ev.off).head?

/-- The offset records a transaction with these events must have for a partition. -/
def expect (evs : List Ev) (tp : Nat) : List (Nat × Nat) := ((newest evs tp).map fun o => (tp, o + 1)).toList

/-- How far `finalizeEventContexts` (`streams/eos_producer.go:336-358`) has come with the offset records. -/
def FinC (a : A) (cur : List Ev) (flag : Bool) (rest : List Nat) : Prop :=
  ∃ (dn : List Nat) (ct : Option Nat), (dn ++ ct.toList ++ rest).Perm (a.nodes a.lo).parts ∧
    (∀ tp ∈ dn, commits a.calls a.lo tp = expect (evOf a.added a.lo) tp) ∧
    (∀ tp ∈ rest, commits a.calls a.lo tp = []) ∧
    match ct with
    | none => cur = []
    | some tp => ∃ pre, (a.nodes a.lo).chain tp = pre ++ cur ∧
        if flag then commits a.calls a.lo tp = expect (evOf a.added a.lo) tp
        else commits a.calls a.lo tp = [] ∧ ∀ e ∈ pre, e.off = none

structure Fin (a : A) : Prop where
  ended : a.ended.map Prod.fst = List.range (if a.relinquished = none then a.lo else a.lo + 1)
  flag : ∀ g b, (g, b) ∈ a.ended → (b = true ↔ ∃ o ∈ a.calls, o.gen = g)
  pc : ∀ g, a.lo ≤ g → (a.com ≠ .back ∨ g ≠ a.lo) → (a.nodes g).produceCnt = (a.calls.filter fun o => o.gen = g).length
  past : ∀ g tp, (g < a.lo ∨ (g = a.lo ∧ a.relinquished ≠ none)) → commits a.calls g tp = expect (evOf a.added g) tp
  none_yet : ∀ g tp, (a.lo < g ∨ (g = a.lo ∧ (a.com = .idle ∨ a.com = .begun))) → commits a.calls g tp = []
  fin : ∀ cur flag rest, a.com = .fin cur flag rest → FinC a cur flag rest

theorem fin_init : Fin A.init := by
  refine ⟨?_, ?_, ?_, ?_, ?_, ?_⟩ <;> simp [A.init, A.relinquished, Node.new, commits, ofTp]

theorem fin_same {a a' : A} (F : Fin a) (h1 : a'.lo = a.lo) (h2 : a'.com = a.com) (h3 : a'.calls = a.calls)
    (h4 : a'.added = a.added) (h5 : a'.ended = a.ended) (he : ∀ g, (a'.nodes g).evs = (a.nodes g).evs)
    (hp : ∀ g, (a'.nodes g).produceCnt = (a.nodes g).produceCnt) : Fin a' := by
  have hr : a'.relinquished = a.relinquished := by unfold A.relinquished; rw [h2]
  refine ⟨?_, ?_, ?_, ?_, ?_, ?_⟩
  · rw [h5, hr, h1]; exact F.ended
  · rw [h5, h3]; exact F.flag
  · simp only [h1, h2, hp, h3]; exact F.pc
  · simp only [h1, hr, h3, h4]; exact F.past
  · simp only [h1, h2, h3]; exact F.none_yet
  · rw [h2]
    intro cur flag rest hc
    have := F.fin cur flag rest hc
    unfold FinC at this ⊢
    simp only [h1, parts_congr (he a.lo), chain_congr (he a.lo), h3, h4]
    exact this

theorem aproduce_pc (a : A) (g tp : Nat) (r : Rec) (g' : Nat) :
    ((aproduce a g tp r).nodes g').produceCnt = (a.nodes g').produceCnt + if g' = g then 1 else 0 := by
  unfold aproduce; split <;> (by_cases h : g' = g <;> simp [upd, h])

theorem newest_chain (nd : Node) (tp : Nat) : newest nd.evs tp = ((nd.chain tp).filterMap Ev.off).head? := rfl

/-- The calls of a transaction that has ended stay as they are; a call of a live one is counted. -/
theorem fin_produce {a : A} (F : Fin a) {g tp : Nat} (x : Nat) (hg : a.lo ≤ g)
    (hr : g ≠ a.lo ∨ a.relinquished = none) : Fin (aproduce a g tp (.user x)) := by
  obtain ⟨f1, f2, f3, f4, f5, f6, f7, f8, f9, f10, f11⟩ := aproduce_frame a g tp (.user x)
  have hrel : (aproduce a g tp (.user x)).relinquished = a.relinquished := by unfold A.relinquished; rw [f6]
  have hcm : ∀ g' tp', commits (aproduce a g tp (.user x)).calls g' tp' = commits a.calls g' tp' := by
    intro g' tp'
    rw [f11, commits_append]
    have : commits [(⟨g, tp, .user x⟩ : Out)] g' tp' = [] := by
      unfold commits
      rw [ofTp_one]
      split <;> simp [Rec.commit?]
    rw [this, List.append_nil]
  refine ⟨?_, ?_, ?_, ?_, ?_, ?_⟩
  · rw [f10, hrel, f1]; exact F.ended
  · intro g' b hb
    rw [f10] at hb
    rw [f11, F.flag g' b hb]
    have hlt : g' ≠ g := by
      have hm : g' ∈ a.ended.map Prod.fst := List.mem_map.2 ⟨_, hb, rfl⟩
      rw [F.ended, List.mem_range] at hm
      split at hm
      · omega
      · rename_i hne
        rcases hr with h | h
        · omega
        · exact absurd h hne
    simp only [List.mem_append, List.mem_singleton]
    constructor
    · rintro ⟨o, h1, h2⟩; exact ⟨o, .inl h1, h2⟩
    · rintro ⟨o, h1 | h1, h2⟩
      · exact ⟨o, h1, h2⟩
      · subst h1; exact absurd h2.symm hlt
  · intro g' h1 h2
    rw [f1] at h1 h2
    rw [f6] at h2
    rw [aproduce_pc, f11, F.pc g' h1 h2, List.filter_append, List.length_append]
    by_cases e : g' = g
    · subst e; simp
    · have : ¬ g = g' := fun h => e h.symm
      simp [e, this]
  · simp only [f1, hrel, hcm, f9]; exact F.past
  · simp only [f1, f6, hcm]; exact F.none_yet
  · rw [f6]
    intro cur flag rest hc
    have := F.fin cur flag rest hc
    unfold FinC at this ⊢
    simp only [f1, parts_congr (aproduce_node a g tp (.user x) a.lo).1, chain_congr (aproduce_node a g tp (.user x) a.lo).1,
      hcm, f9]
    exact this

theorem fin_step {c : Cfg} {a a' : A} (l : Label) (B : Base c.poolSize a) (O : Order c.poolSize a) (F : Fin a)
    (h : astep c a l = some a') : Fin a' := by
  have hB' := base_step l B h
  cases l with
  | add e =>
    have key : a.fwd = .idle ∧ (∀ r, a.com ≠ .relinq r) ∧
        a' = { a with
          nodes := upd a.nodes a.gen { a.nodes a.gen with
            evs := (a.nodes a.gen).evs ++ [e], cnt := (a.nodes a.gen).cnt + 1 }
          fwd := .added e
          added := a.added ++ [(e, a.gen)] } := by
      unfold astep at h
      simp only at h
      split at h
      · simp at h
      · rename_i h1 h2
        split at h
        · simp at h
        · exact ⟨h1, fun r hr => h2 r hr, (Option.some.inj h).symm⟩
      · simp at h
    obtain ⟨hf, hc, rfl⟩ := key
    have hlg : a.lo ≤ a.gen := by
      have := B.win.1
      rwa [top_of_ne (by rw [hf]; simp)] at this
    have hne : ∀ g, (g < a.lo ∨ (g = a.lo ∧ a.st = a.lo + 1)) → g ≠ a.gen := by
      intro g hor
      rcases hor with h | ⟨h, h'⟩
      · omega
      · have := lo_lt_gen B (by rw [hf]; simp) h'; omega
    refine ⟨F.ended, F.flag, ?_, ?_, F.none_yet, ?_⟩
    · intro g hg hor
      have : ((upd a.nodes a.gen { a.nodes a.gen with
            evs := (a.nodes a.gen).evs ++ [e], cnt := (a.nodes a.gen).cnt + 1 }) g).produceCnt = (a.nodes g).produceCnt := by
        by_cases e1 : g = a.gen <;> simp [upd, e1]
      exact this.trans (F.pc g hg hor)
    · intro g tp hor
      simp only at hor ⊢
      rw [evOf_snoc, if_neg (hne g (by
        rcases hor with h | ⟨h, h'⟩
        · exact .inl h
        · exact .inr ⟨h, relinq_st B h'⟩))]
      exact F.past g tp hor
    · intro cur flag rest hcom
      have hst := B.st
      rw [show a.com = .fin cur flag rest from hcom] at hst
      have hl := hne a.lo (.inr ⟨rfl, hst⟩)
      have := F.fin cur flag rest hcom
      unfold FinC at this ⊢
      simp only
      rw [upd_ne _ _ hl, evOf_snoc, if_neg hl]
      exact this
  | give =>
    unfold astep at h
    simp only at h
    split at h
    · cases h; exact fin_same F rfl rfl rfl rfl rfl (fun _ => rfl) (fun _ => rfl)
    · simp at h
  | check =>
    unfold astep at h
    simp only at h
    split at h
    · cases h; exact fin_same F rfl rfl rfl rfl rfl (fun _ => rfl) (fun _ => rfl)
    · simp at h
  | tick =>
    unfold astep at h
    simp only at h
    split at h
    · cases h; exact fin_same F rfl rfl rfl rfl rfl (fun _ => rfl) (fun _ => rfl)
    · simp at h
  | tryFlush =>
    unfold astep at h
    simp only at h
    split at h
    · repeat' split at h
      all_goals
        cases h; exact fin_same F rfl rfl rfl rfl rfl (fun _ => rfl) (fun _ => rfl)
    · simp at h
  | forced =>
    unfold astep at h
    simp only at h
    split at h
    · split at h
      · cases h; exact fin_same F rfl rfl rfl rfl rfl (fun _ => rfl) (fun _ => rfl)
      · simp at h
    · simp at h
  | swapIn =>
    unfold astep at h
    simp only at h
    split at h
    · split at h
      · cases h; exact fin_same F rfl rfl rfl rfl rfl (fun _ => rfl) (fun _ => rfl)
      · simp at h
    · simp at h
  | take =>
    unfold astep at h
    simp only at h
    split at h
    · rename_i hc
      split at h
      · cases h
        have hrel : a.relinquished = none := by simp [A.relinquished, hc]
        refine ⟨?_, F.flag, ?_, ?_, ?_, by simp⟩
        · have := F.ended
          rw [hrel] at this
          simpa [A.relinquished] using this
        · intro g hg _; exact F.pc g hg (.inl (by rw [hc]; simp))
        · intro g tp hor
          rcases hor with h | ⟨_, h⟩
          · exact F.past g tp (.inl h)
          · simp [A.relinquished] at h
        · intro g tp hor
          rcases hor with h | ⟨h, _⟩
          · exact F.none_yet g tp (.inl h)
          · exact F.none_yet g tp (.inr ⟨h, .inl hc⟩)
      · simp at h
    · simp at h
  | beginCommit order =>
    unfold astep at h
    simp only at h
    split at h
    · rename_i hc
      split at h
      · rename_i hord
        cases h
        have hrel : a.relinquished = none := by simp [A.relinquished, hc]
        have hev : ∀ g, ((abeginCommit a).nodes g).evs = (a.nodes g).evs := by
          intro g; unfold abeginCommit; by_cases e : g = a.lo <;> simp [upd, e]
        have hpc : ∀ g, ((abeginCommit a).nodes g).produceCnt = (a.nodes g).produceCnt := by
          intro g; unfold abeginCommit; by_cases e : g = a.lo <;> simp [upd, e]
        refine ⟨?_, F.flag, ?_, ?_, ?_, ?_⟩
        · have := F.ended
          rw [hrel] at this
          simpa [A.relinquished, abeginCommit] using this
        · intro g hg _; exact (hpc g).trans (F.pc g hg (.inl (by rw [hc]; simp)))
        · intro g tp hor
          rcases hor with h | ⟨_, h⟩
          · exact F.past g tp (.inl h)
          · simp [A.relinquished] at h
        · intro g tp hor
          rcases hor with h | ⟨h, h'⟩
          · exact F.none_yet g tp (.inl h)
          · simp at h'
        · intro cur flag rest hcom
          simp only [ACom.fin.injEq] at hcom
          obtain ⟨rfl, rfl, rfl⟩ := hcom
          refine ⟨[], none, ?_, by simp, ?_, rfl⟩
          · change ([] ++ none.toList ++ order).Perm ((abeginCommit a).nodes a.lo).parts
            rw [parts_congr (hev a.lo)]
            simpa [IsOrder] using hord
          · intro tp _
            exact F.none_yet a.lo tp (.inr ⟨rfl, .inr hc⟩)
      · simp at h
    · simp at h
  | wait =>
    unfold astep at h
    simp only at h
    split at h
    · rename_i e es flag rest hc
      have hst := B.st
      rw [hc] at hst
      have hrel : a.relinquished = none := by simp [A.relinquished, hc]
      have hevs := B.evs a.lo (Nat.le_refl _) (.inr hrel)
      obtain ⟨dn, ct, p1, p2, p3, p4⟩ := F.fin _ _ _ hc
      cases ct with
      | none => simp at p4
      | some tp =>
      obtain ⟨pre, q1, q2⟩ := p4
      have hin := (mem_chain.1 (show e ∈ (a.nodes a.lo).chain tp by rw [q1]; simp))
      split at h
      · rename_i hd
        split at h
        · rename_i o hoff
          cases h
          simp only [Bool.false_eq_true, if_false] at q2
          obtain ⟨f1, f2, f3, f4, f5, f6, f7, f8, f9, f10, f11⟩ := aproduce_frame a a.lo e.part (.commit e.part (o + 1))
          have hcm : ∀ g' tp', commits (aproduce a a.lo e.part (.commit e.part (o + 1))).calls g' tp' =
              commits a.calls g' tp' ++ if a.lo = g' ∧ tp = tp' then [(tp, o + 1)] else [] := by
            intro g' tp'
            rw [f11, commits_append]
            congr 1
            unfold commits
            rw [ofTp_one, hin.2]
            split <;> simp [Rec.commit?]
          have htn : tp ∉ dn ∧ tp ∉ rest := by
            have hnd : (dn ++ (some tp).toList ++ rest).Nodup := (List.Perm.nodup_iff p1).2 (parts_nodup _)
            simp only [Option.toList_some, List.append_assoc, List.singleton_append, List.nodup_append, List.nodup_cons,
              List.mem_cons] at hnd
            refine ⟨fun h => ?_, hnd.2.1.1⟩
            exact hnd.2.2 tp h tp (.inl rfl) rfl
          have hexp : expect (evOf a.added a.lo) tp = [(tp, o + 1)] := by
            rw [← hevs]
            unfold expect
            rw [newest_chain, q1, List.filterMap_append]
            have hpre : pre.filterMap Ev.off = [] := by
              rw [List.filterMap_eq_nil_iff]; exact q2.2
            rw [hpre, List.nil_append, List.filterMap_cons, hoff]
            rfl
          refine ⟨?_, ?_, ?_, ?_, ?_, ?_⟩
          · have := F.ended
            rw [hrel] at this
            simp only [A.relinquished]
            rw [f10, f1]
            simpa using this
          · intro g' b hb
            simp only at hb ⊢
            rw [f10] at hb
            rw [f11, F.flag g' b hb]
            have hlt : g' ≠ a.lo := by
              have hm : g' ∈ a.ended.map Prod.fst := List.mem_map.2 ⟨_, hb, rfl⟩
              rw [F.ended, hrel, if_pos rfl, List.mem_range] at hm
              omega
            simp only [List.mem_append, List.mem_singleton]
            constructor
            · rintro ⟨o, h1, h2⟩; exact ⟨o, .inl h1, h2⟩
            · rintro ⟨o, h1 | h1, h2⟩
              · exact ⟨o, h1, h2⟩
              · subst h1; exact absurd h2.symm hlt
          · intro g' h1 _
            simp only at h1 ⊢
            rw [f1] at h1
            rw [aproduce_pc, f11, F.pc g' h1 (.inl (by rw [hc]; simp)), List.filter_append, List.length_append]
            by_cases e : g' = a.lo
            · subst e; simp
            · have : ¬ a.lo = g' := fun h => e h.symm
              simp [e, this]
          · intro g' tp' hor
            simp only [f1, f9, hcm] at hor ⊢
            rcases hor with h | ⟨_, h⟩
            · rw [if_neg (by omega), List.append_nil]; exact F.past g' tp' (.inl h)
            · simp [A.relinquished] at h
          · intro g' tp' hor
            simp only [f1, hcm] at hor ⊢
            rcases hor with h | ⟨_, h⟩
            · rw [if_neg (by omega), List.append_nil]; exact F.none_yet g' tp' (.inl h)
            · simp at h
          · intro cur flag2 rest2 hcom
            simp only [ACom.fin.injEq] at hcom
            obtain ⟨rfl, rfl, rfl⟩ := hcom
            have hpn : ∀ g, ((aproduce a a.lo e.part (.commit e.part (o + 1))).nodes g).evs = (a.nodes g).evs :=
              fun g => (aproduce_node a a.lo e.part _ g).1
            refine ⟨dn, some tp, ?_, ?_, ?_, pre ++ [e], ?_, ?_⟩
            · simp only [f1]; rw [parts_congr (hpn a.lo)]; exact p1
            · intro t ht
              simp only [f1, f9, hcm]
              rw [if_neg (by rintro ⟨_, rfl⟩; exact htn.1 ht), List.append_nil]
              exact p2 t ht
            · intro t ht
              simp only [f1, hcm]
              rw [if_neg (by rintro ⟨_, rfl⟩; exact htn.2 ht), List.append_nil]
              exact p3 t ht
            · simp only [f1]; rw [chain_congr (hpn a.lo), q1]; simp
            · simp only [if_true, f1, f9, hcm]
              rw [q2.1, hexp]; simp
        · rename_i hno
          cases h
          rename_i flag _ _
          refine ⟨?_, F.flag, ?_, ?_, ?_, ?_⟩
          · have := F.ended
            rw [hrel] at this
            simpa [A.relinquished] using this
          · intro g hg _; exact F.pc g hg (.inl (by rw [hc]; simp))
          · intro g tp hor
            rcases hor with h | ⟨_, h⟩
            · exact F.past g tp (.inl h)
            · simp [A.relinquished] at h
          · intro g tp hor
            rcases hor with h | ⟨_, h⟩
            · exact F.none_yet g tp (.inl h)
            · simp at h
          · intro cur flag2 rest2 hcom
            simp only [ACom.fin.injEq] at hcom
            obtain ⟨rfl, rfl, rfl⟩ := hcom
            refine ⟨dn, some tp, p1, p2, p3, pre ++ [e], by simp only [q1]; simp, ?_⟩
            cases flag with
            | true => simpa using q2
            | false =>
              simp only [Bool.false_eq_true, if_false] at q2 ⊢
              refine ⟨q2.1, ?_⟩
              intro x hx
              rcases List.mem_append.1 hx with hx | hx
              · exact q2.2 x hx
              · simp at hx; subst hx
                cases ho : x.off with
                | none => rfl
                | some o => exact absurd ho (hno o rfl)
      · simp at h
    · rename_i flag tp rest hc
      cases h
      have hrel : a.relinquished = none := by simp [A.relinquished, hc]
      have hevs := B.evs a.lo (Nat.le_refl _) (.inr hrel)
      refine ⟨?_, F.flag, ?_, ?_, ?_, ?_⟩
      · have := F.ended
        rw [hrel] at this
        simpa [A.relinquished] using this
      · intro g hg _; exact F.pc g hg (.inl (by rw [hc]; simp))
      · intro g tp hor
        rcases hor with h | ⟨_, h⟩
        · exact F.past g tp (.inl h)
        · simp [A.relinquished] at h
      · intro g tp hor
        rcases hor with h | ⟨_, h⟩
        · exact F.none_yet g tp (.inl h)
        · simp at h
      · intro cur flag2 rest2 hcom
        simp only [ACom.fin.injEq] at hcom
        obtain ⟨rfl, rfl, rfl⟩ := hcom
        obtain ⟨dn, ct, p1, p2, p3, p4⟩ := F.fin _ _ _ hc
        refine ⟨dn ++ ct.toList, some tp, by simpa [List.append_assoc] using p1, ?_, ?_, [], rfl, ?_⟩
        · intro t ht
          rcases List.mem_append.1 ht with ht | ht
          · exact p2 t ht
          · cases ct with
            | none => simp at ht
            | some t' =>
              simp at ht
              subst ht
              obtain ⟨pre, q1, q2⟩ := p4
              cases flag with
              | true => simpa using q2
              | false =>
                simp only [Bool.false_eq_true, if_false] at q2
                simp only
                rw [q2.1, ← hevs]
                unfold expect
                rw [newest_chain, q1, List.append_nil]
                have : pre.filterMap Ev.off = [] := by
                  rw [List.filterMap_eq_nil_iff]; exact q2.2
                rw [this]; rfl
        · intro t ht; exact p3 t (List.mem_cons_of_mem _ ht)
        · simp only [Bool.false_eq_true, if_false]
          exact ⟨p3 tp (by simp), by simp⟩
    · simp at h
  | endTxn order =>
    unfold astep at h
    simp only at h
    split at h
    · rename_i flag hc
      split at h
      · cases h
        have hrel : a.relinquished = none := by simp [A.relinquished, hc]
        have hevs := B.evs a.lo (Nat.le_refl _) (.inr hrel)
        have hE := F.ended
        rw [hrel, if_pos rfl] at hE
        refine ⟨?_, ?_, ?_, ?_, ?_, by simp⟩
        · simp only [List.map_append, List.map_cons, List.map_nil, hE]
          simp [A.relinquished, List.range_succ]
        · intro g b hb
          simp only [List.mem_append, List.mem_singleton, Prod.mk.injEq] at hb
          rcases hb with hb | ⟨rfl, rfl⟩
          · exact F.flag g b hb
          · rw [F.pc a.lo (Nat.le_refl _) (.inl (by rw [hc]; simp))]
            simp only [decide_eq_true_eq, ne_eq, List.length_eq_zero_iff, List.filter_eq_nil_iff]
            push Not
            rfl
        · intro g hg _; exact F.pc g hg (.inl (by rw [hc]; simp))
        · intro g tp hor
          simp only at hor ⊢
          rcases hor with h | ⟨rfl, _⟩
          · exact F.past g tp (.inl h)
          · obtain ⟨dn, ct, p1, p2, p3, p4⟩ := F.fin _ _ _ hc
            by_cases hm : tp ∈ (a.nodes a.lo).parts
            · rw [← p1.mem_iff, List.append_nil, List.mem_append] at hm
              rcases hm with hm | hm
              · exact p2 tp hm
              · cases ct with
                | none => simp at hm
                | some t' =>
                  simp at hm
                  subst hm
                  obtain ⟨pre, q1, q2⟩ := p4
                  cases flag with
                  | true => simpa using q2
                  | false =>
                    simp only [Bool.false_eq_true, if_false] at q2
                    rw [q2.1, ← hevs]
                    unfold expect
                    rw [newest_chain, q1, List.append_nil]
                    have : pre.filterMap Ev.off = [] := by
                      rw [List.filterMap_eq_nil_iff]; exact q2.2
                    rw [this]; rfl
            · have hno : (a.nodes a.lo).has tp = false := by
                cases hh : (a.nodes a.lo).has tp with
                | false => rfl
                | true => exact absurd (mem_parts.2 (has_iff.1 hh)) hm
              have : commits a.calls a.lo tp = [] := by
                unfold commits
                rw [call_has B O (.inr ⟨Nat.le_refl _, hrel⟩) hno]; rfl
              rw [this, ← hevs]
              unfold expect newest
              have hnil : ((a.nodes a.lo).evs.filter fun e => e.part = tp) = [] := by
                rw [List.filter_eq_nil_iff]
                intro e he hp
                simp at hp
                exact hm (mem_parts.2 ⟨e, he, hp⟩)
              rw [hnil]; rfl
        · intro g tp hor
          rcases hor with h | ⟨_, h⟩
          · exact F.none_yet g tp (.inl h)
          · simp at h
      · simp at h
    · simp at h
  | release =>
    unfold astep at h
    simp only at h
    split at h
    · rename_i tp rest hc
      cases h
      have hrel : a.relinquished ≠ none := by simp [A.relinquished, hc]
      have hfr : (arelinquish c.poolSize a tp).lo = a.lo ∧ (arelinquish c.poolSize a tp).calls = a.calls ∧
          (arelinquish c.poolSize a tp).added = a.added ∧ (arelinquish c.poolSize a tp).ended = a.ended := by
        unfold arelinquish; split <;> simp [aflushPartition]
      obtain ⟨f1, f2, f3, f4⟩ := hfr
      have hpc : ∀ g, ((arelinquish c.poolSize a tp).nodes g).produceCnt = (a.nodes g).produceCnt := by
        intro g
        unfold arelinquish
        simp only
        split
        · rename_i q hq
          simp only [aflushPartition, upd]
          by_cases e : g = a.lo <;> by_cases e2 : g = q <;> by_cases e3 : a.lo = q <;> simp_all
        · simp only [upd]
          by_cases e : g = a.lo <;> simp [e]
      refine ⟨?_, ?_, ?_, ?_, ?_, by simp⟩
      · have := F.ended
        rw [if_neg hrel] at this
        simp only [A.relinquished]
        rw [f4, f1]
        simpa using this
      · simp only; rw [f4, f2]; exact F.flag
      · intro g hg _
        simp only at hg ⊢
        rw [f1] at hg
        rw [hpc, f2]
        exact F.pc g hg (.inl (by rw [hc]; simp))
      · intro g tp' hor
        simp only [f1, f2, f3] at hor ⊢
        refine F.past g tp' ?_
        rcases hor with h | ⟨h, _⟩
        · exact .inl h
        · exact .inr ⟨h, hrel⟩
      · intro g tp' hor
        simp only [f1, f2] at hor ⊢
        rcases hor with h | ⟨_, h⟩
        · exact F.none_yet g tp' (.inl h)
        · simp at h
    · rename_i hc
      cases h
      have hrel : a.relinquished ≠ none := by simp [A.relinquished, hc]
      refine ⟨?_, F.flag, ?_, ?_, ?_, by simp⟩
      · have := F.ended
        rw [if_neg hrel] at this
        simpa [A.relinquished] using this
      · intro g hg hor
        have hgl : g ≠ a.lo := by
          rcases hor with h | h
          · simp at h
          · exact h
        simp only
        rw [upd_ne _ _ hgl]
        exact F.pc g hg (.inl (by rw [hc]; simp))
      · intro g tp hor
        refine F.past g tp ?_
        rcases hor with h | ⟨h, _⟩
        · exact .inl h
        · exact .inr ⟨h, hrel⟩
      · intro g tp hor
        rcases hor with h | ⟨_, h⟩
        · exact F.none_yet g tp (.inl h)
        · simp at h
    · simp at h
  | giveBack =>
    unfold astep at h
    simp only at h
    split at h
    · rename_i hc
      cases h
      have hrel : a.relinquished ≠ none := by simp [A.relinquished, hc]
      refine ⟨?_, F.flag, ?_, ?_, ?_, by simp⟩
      · have := F.ended
        rw [if_neg hrel] at this
        simpa [A.relinquished] using this
      · intro g hg _
        simp only at hg
        exact F.pc g (by omega) (.inr (by omega))
      · intro g tp hor
        refine F.past g tp ?_
        rcases hor with h | ⟨_, h⟩
        · simp only at h
          by_cases e : g = a.lo
          · exact .inr ⟨e, hrel⟩
          · exact .inl (by omega)
        · simp [A.relinquished] at h
      · intro g tp hor
        refine F.none_yet g tp (.inl ?_)
        simp only at hor
        omega
    · simp at h
  | commitFail cont =>
    unfold astep at h
    simp only at h
    split at h
    · rename_i hc
      split at h
      · simp at h
      · cases h
        have hrel : a.relinquished = none := by simp [A.relinquished, hc]
        refine ⟨?_, F.flag, ?_, ?_, ?_, by simp⟩
        · have := F.ended
          rw [hrel] at this
          simpa [A.relinquished] using this
        · intro g hg _; exact F.pc g hg (.inl (by rw [hc]; simp))
        · intro g tp hor
          rcases hor with h | ⟨_, h⟩
          · exact F.past g tp (.inl h)
          · simp [A.relinquished] at h
        · intro g tp hor
          rcases hor with h | ⟨_, h⟩
          · exact F.none_yet g tp (.inl h)
          · simp at h
    · simp at h
  | asyncFail =>
    unfold astep at h
    simp only at h
    split at h
    · rename_i hc
      cases h
      have hrel : a.relinquished = none := by simp [A.relinquished, hc]
      refine ⟨?_, F.flag, ?_, ?_, ?_, by simp⟩
      · have := F.ended
        rw [hrel] at this
        simpa [A.relinquished] using this
      · intro g hg _; exact F.pc g hg (.inl (by rw [hc]; simp))
      · intro g tp hor
        rcases hor with h | ⟨_, h⟩
        · exact F.past g tp (.inl h)
        · simp [A.relinquished] at h
      · intro g tp hor
        rcases hor with h | ⟨_, h⟩
        · exact F.none_yet g tp (.inl h)
        · simp at h
    · simp at h
  | produce e x =>
    unfold astep at h
    simp only at h
    split at h
    · rename_i g hg
      split at h
      · rename_i hh
        cases h
        obtain ⟨⟨e', g'⟩, he', rfl⟩ := List.mem_map.1 hh.1
        obtain ⟨e2, k1, k2⟩ := B.asg1 _ _ hg
        obtain ⟨rfl, rfl⟩ := added_unique B k1 he' k2
        obtain ⟨m1, m2, m3⟩ := alive B he' hh.2
        refine fin_produce F x m1 ?_
        by_contra hc
        simp only [not_or, ne_eq, Decidable.not_not] at hc
        obtain ⟨rfl, hr⟩ := hc
        exact hh.2 (B.last hr _ he')
      · simp at h
    · simp at h
  | complete e =>
    unfold astep at h
    simp only at h
    split at h
    · split at h
      · cases h
        exact fin_same F rfl rfl rfl rfl rfl (fun _ => rfl) (fun _ => rfl)
      · simp at h
    · simp at h

theorem fin_reach {c : Cfg} (hn : 0 < c.poolSize) {a : A} (h : AReach c a) : Fin a := by
  induction h with
  | init => exact fin_init
  | step l hr hs ih => exact fin_step l (base_reach hn hr) (order_reach hn hr) ih hs

end Verif.Eos
