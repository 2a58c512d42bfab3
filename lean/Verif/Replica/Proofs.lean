import Verif.Replica.Cell
/-
Proofs for C109: the group.
-/
namespace Verif.Replica
open Verif.Eos Verif.Effects Verif.Fleet

variable {σ X : Type} {c : Cfg} {a : Exact.App σ X} {src : Nat → List Nat} {val : Nat → Nat → X} {w w' : W σ}

theorem put_eq {α : Type} (f : Nat → Nat → α) (k tp : Nat) (v : α) (j tp' : Nat) :
    put f k tp v j tp' = if j = k ∧ tp' = tp then v else f j tp' := by
  unfold put
  by_cases hj : j = k
  · subst hj
    rw [upd_self]
    by_cases ht : tp' = tp
    · subst ht; simp [upd_self]
    · simp [upd_other _ _ ht, ht]
  · simp [upd_other _ _ hj, hj]

structure Inv (c : Cfg) (a : Exact.App σ X) (src : Nat → List Nat) (val : Nat → Nat → X) (w : W σ) : Prop where
  calm : Fleet.Calm c src w.g
  cells : ∀ k tp, Cell a src val w k tp
  vis : ∀ tp, w.vis tp = outsAt a src val tp (w.g.wm tp)

/-- The visible records after a step of a consumer. -/
theorem vis_goes (hn : 0 < c.poolSize) (hsrc : ∀ tp, (src tp).Pairwise (· < ·)) (I : Inv c a src val w) {k : Nat} {i' : Inc}
    (hk : w.g.alive k = true) (G : Goes c (w.g.inst k) i') {tp : Nat} {work : Option (List Nat)} {st : σ} {queue : List Ev}
    {cur : Option (Ev × List Nat)} {fin : List Ev} {pre : List Nat} (K : CellAt a src val tp i' work st queue cur fin pre)
    (hc : (i'.pool.ended = (w.g.inst k).pool.ended ∧ ∃ ext, i'.changes tp = (w.g.inst k).changes tp ++ ext ∧
        ∀ x ∈ ext, (w.g.inst k).pool.ended.length ≤ genOf i' x) ∨ i'.changes tp = (w.g.inst k).changes tp) :
    w.vis tp ++ fresh (w.g.inst k) i' tp = outsAt a src val tp ((w.g.move k i').wm tp) := by
  have hcs := cores hn I.calm.reach
  obtain ⟨last, O⟩ := once_calm hn hsrc I.calm
  have ha : i'.pool.added = (w.g.inst k).pool.added := by rcases G.kind with ⟨h, -⟩ | ⟨h, -⟩ <;> exact h
  have hgen : ∀ x ∈ (w.g.inst k).changes tp, genOf i' x = genOf (w.g.inst k) x := fun x _ => genOf_added ha x
  have quiet : fresh (w.g.inst k) i' tp = [] → (w.g.move k i').wm tp = w.g.wm tp →
      w.vis tp ++ fresh (w.g.inst k) i' tp = outsAt a src val tp ((w.g.move k i').wm tp) := by
    intro h1 h2; rw [h1, h2, List.append_nil, I.vis]
  rcases G.kind with ⟨-, h2, h3⟩ | ⟨-, h2, h3⟩
  · refine quiet ?_ (by rw [wm_move, h3]; rfl)
    rcases hc with ⟨-, ext, h4, h5⟩ | h4
    · exact fresh_quiet hn (hcs k) G.core h2 h4 hgen h5
    · exact fresh_quiet hn (hcs k) G.core (ext := []) h2 (by rw [h4]; simp) hgen (by simp)
  · have h4 : i'.changes tp = (w.g.inst k).changes tp := by
      rcases hc with ⟨h, -⟩ | h
      · rw [h] at h2; omega
      · exact h
    have hf := fresh_end hn (hcs k) G.core h2 h4 hgen
    rw [K.visible hn G.core (by omega), ha] at hf
    have hsplit := from_split (C04_in_order hn (hcs k).reach).2.1 (w.g.inst k).pool.ended.length tp
    have hnw : newest (evOf (w.g.inst k).pool.added (w.g.inst k).pool.ended.length) tp = _ := newest_last
    generalize ((evOf (w.g.inst k).pool.added (w.g.inst k).pool.ended.length).filter fun e => e.part = tp).filterMap Ev.off = A at hf hsplit hnw
    cases hy : A.getLast? with
    | none =>
      rw [List.getLast?_eq_none_iff] at hy
      subst hy
      exact quiet (by rw [hf]; rfl) (by rw [wm_move, h3, hnw]; rfl)
    | some y =>
      have hpend : pend (w.g.inst k) tp = A ++ from_ (w.g.inst k).pool.added ((w.g.inst k).pool.ended.length + 1) tp := hsplit
      have hl : last tp = some k := by
        by_contra hne
        have := (O.idle k tp hne hk).1
        rw [hpend] at this
        rw [(List.append_eq_nil_iff.1 this).1] at hy
        simp at hy
      obtain ⟨r, hr, -⟩ := O.act k tp hl hk
      rw [hpend, List.append_assoc] at hr
      have hwm : (w.g.move k i').wm tp = y + 1 := by rw [wm_move, h3, hnw, hy]; rfl
      rw [hwm, hf, I.vis, seq_more (hsrc tp) A hr hy]

theorem calm_step (h : Fleet.Calm c src w.g) {x : Act} (ho : Orderly w x) (hs : step c a src val w x = some w') : Fleet.Calm c src w'.g := by
  cases x with
  | assign k tp =>
    simp only [step] at hs
    obtain ⟨g', h1, rfl⟩ := Option.map_eq_some_iff.1 hs
    exact .step (.assign k tp (w.g.wm tp)) h ⟨rfl, ho⟩ h1
  | begin k tp =>
    simp only [step] at hs
    repeat' split at hs
    all_goals first
      | (cases hs; exact h)
      | cases hs
  | _ =>
    simp only [step] at hs
    repeat' split at hs
    all_goals first
      | cases hs; done
      | (obtain ⟨g', h1, rfl⟩ := Option.map_eq_some_iff.1 hs
         exact .step _ h (by exact trivial) h1)

theorem changes_prods {i i' : Inc} (h : i'.prods = i.prods) (tp : Nat) : i'.changes tp = i.changes tp := by
  unfold Inc.changes; rw [h]

/-- A living consumer without uncommitted records of the partition has finished all events of it. -/
theorem idle_cell (hn : 0 < c.poolSize) {i : Inc} (C : Core c i) {tp : Nat} {work : Option (List Nat)} {st : σ} {queue : List Ev}
    {cur : Option (Ev × List Nat)} {fin : List Ev} {pre : List Nat} (K : CellAt a src val tp i work st queue cur fin pre)
    (h : ¬ Busy i tp) : todo cur queue = [] := by
  rw [List.eq_nil_iff_forall_not_mem]
  intro e he
  obtain ⟨hp, g, hm⟩ := K.mem (List.mem_append_right fin he)
  refine h ⟨e, g, hm, hp, by have := K.offs _ hm hp; simp only at this; rw [this]; simp, ?_⟩
  intro hen
  exact K.open_ e he (ended_done hn C.reach (List.mem_map.2 ⟨_, hen, rfl⟩) e hm)

theorem todo_nil {cur : Option (Ev × List Nat)} {queue : List Ev} (h : todo cur queue = []) : cur = none ∧ queue = [] := by
  unfold todo at h
  obtain ⟨h1, h2⟩ := List.append_eq_nil_iff.1 h
  cases cur with
  | none => exact ⟨rfl, h2⟩
  | some x => simp at h1

theorem inv_init : Inv c a src val (W.init c a) := by
  refine ⟨.init, fun k tp => ⟨[], [], ⟨rfl, ?_, rfl, ?_, ?_, .inl ⟨rfl, rfl, rfl⟩⟩⟩, ?_⟩
  · intro x hx
    simp [W.init, Fleet.World.init, Inc.start, Pool.init] at hx
  · intro e he
    simp [todo, W.init] at he
  · intro e ys h; cases h
  · intro tp
    have : ((src tp).filter fun o => decide (o < 0)) = [] := by simp
    show [] = (Exact.handleAll a (((src tp).filter fun o => decide (o < 0)).map (val tp))).2
    rw [this]; rfl

theorem inv_step (hn : 0 < c.poolSize) (hsrc : ∀ tp, (src tp).Pairwise (· < ·)) (I : Inv c a src val w) {x : Act} (ho : Orderly w x)
    (hs : step c a src val w x = some w') : Inv c a src val w' := by
  have hcalm := calm_step I.calm ho hs
  have hcs := cores hn I.calm.reach
  refine (fun (h : (∀ k tp, Cell a src val w' k tp) ∧ ∀ tp, w'.vis tp = outsAt a src val tp (w'.g.wm tp)) => ⟨hcalm, h.1, h.2⟩) ?_
  clear hcalm
  cases x with
  | start =>
    simp only [step, Fleet.step, Option.map_some, Option.some.injEq] at hs
    subst hs
    exact ⟨I.cells, I.vis⟩
  | crash k =>
    simp only [step, Fleet.step] at hs
    split at hs
    · cases hs; exact ⟨I.cells, I.vis⟩
    · cases hs
  | revoke k tp =>
    simp only [step, Fleet.step] at hs
    split at hs
    · cases hs
      refine ⟨fun j tp' => ?_, I.vis⟩
      obtain ⟨fin, pre, K⟩ := I.cells j tp'
      refine ⟨fin, pre, ⟨K.evs, K.offs, K.chg, K.open_, K.now, ?_⟩⟩
      show ((w.g.setWork k tp none).work j tp' = none ∧ w.queue j tp' = [] ∧ w.cur j tp' = none) ∨ ∃ u r, _ ∧
        (∀ l, (w.g.setWork k tp none).work j tp' = some l → r = l) ∧ _
      rw [setWork_work]
      split
      · rcases K.link with ⟨-, h2, h3⟩ | ⟨u, r, h1, -, h3⟩
        · exact .inl ⟨rfl, h2, h3⟩
        · exact .inr ⟨u, r, h1, (by intro l h; cases h), h3⟩
      · exact K.link
    · cases hs
  | assign k tp =>
    simp only [step, Fleet.step] at hs
    split at hs
    · rename_i hk
      cases hs
      refine ⟨fun j tp' => ?_, I.vis⟩
      obtain ⟨fin, pre, K⟩ := I.cells j tp'
      show ∃ fin pre, CellAt a src val tp' (w.g.inst j)
        ((w.g.setWork k tp (some ((src tp).filter fun o => w.g.wm tp ≤ o))).work j tp')
        (put w.st k tp ((w.vis tp).foldl a.apply a.s0) j tp') (put w.queue k tp [] j tp') (put w.cur k tp none j tp') fin pre
      rw [setWork_work, put_eq, put_eq, put_eq]
      split
      · rename_i h
        obtain ⟨rfl, rfl⟩ := h
        obtain ⟨hc0, hq0⟩ := todo_nil (idle_cell hn (hcs j) K (ho j hk.1).2)
        rw [hc0, hq0] at K
        refine ⟨fin, [], ⟨K.evs, K.offs, by simpa using K.chg, (by intro e he; simp [todo] at he), (by intro e ys h; cases h), .inr ?_⟩⟩
        refine ⟨w.g.wm tp', _, rfl, (by intro l h; exact Option.some.inj h), fun _ => ?_⟩
        rw [I.vis, state_outs]
      · exact ⟨fin, pre, K⟩
    · cases hs
  | begin k tp =>
    simp only [step] at hs
    split at hs
    · split at hs
      · rename_i e q hcur hq
        split at hs
        · cases hs
          refine ⟨fun j tp' => ?_, I.vis⟩
          obtain ⟨fin, pre, K⟩ := I.cells j tp'
          show ∃ fin pre, CellAt a src val tp' (w.g.inst j) (w.g.work j tp') (w.st j tp') (put w.queue k tp q j tp')
            (put w.cur k tp (some (e, a.handle (w.st k tp) (val tp (offOf e)))) j tp') fin pre
          rw [put_eq, put_eq]
          split
          · rename_i h
            obtain ⟨rfl, rfl⟩ := h
            rw [hcur, hq] at K
            exact ⟨fin, [], (K.begin (hsrc tp')).1⟩
          · exact ⟨fin, pre, K⟩
        · cases hs
      · cases hs
    · cases hs
  | feed k tp id =>
    simp only [step] at hs
    split at hs
    · rename_i o rest hw
      simp only [Fleet.step, hw] at hs
      split at hs
      · rename_i hk
        rw [Option.map_map] at hs
        obtain ⟨p, hp, rfl⟩ := Option.map_eq_some_iff.1 hs
        have A := adds_add hn (hcs k) hp
        obtain ⟨g, ha, he, hg⟩ := A.kind
        have hd : p.done = (w.g.inst k).pool.done := done_step hp rfl
        have hnew : id ∉ (w.g.inst k).pool.done := by
          intro h
          have h1 := done_added (hcs k).reach id h
          have h2 := (C04_in_order hn A.core.reach).2.2.2
          rw [ha, List.map_append, List.nodup_append] at h2
          exact h2.2.2 id h1 id (by simp) rfl
        refine ⟨fun j tp' => ?_, fun tp' => ?_⟩
        · obtain ⟨fin, pre, K⟩ := I.cells j tp'
          show ∃ fin pre, CellAt a src val tp' ((w.g.move k _).inst j) (((w.g.move k _).setWork k tp (some rest)).work j tp') (w.st j tp')
            (put w.queue k tp (w.queue k tp ++ [⟨id, tp, some o⟩]) j tp') (w.cur j tp') fin pre
          rw [setWork_work, put_eq, move_inst]
          by_cases hj : j = k
          · subst hj
            rw [if_pos rfl]
            by_cases ht : tp' = tp
            · subst ht
              rw [if_pos ⟨rfl, rfl⟩, if_pos ⟨rfl, rfl⟩]
              rw [hw] at K
              exact ⟨fin, pre, K.feed ha rfl hd hnew⟩
            · rw [if_neg (fun h => ht h.2), if_neg (fun h => ht h.2)]
              exact ⟨fin, pre, K.addOther ha (fun h => ht h.symm) rfl hd⟩
          · rw [if_neg hj, if_neg (fun h => hj h.1), if_neg (fun h => hj h.1)]
            exact ⟨fin, pre, K⟩
        · show w.vis tp' ++ fresh (w.g.inst k) ((w.g.move k _).inst k) tp' = outsAt a src val tp' ((w.g.move k _).wm tp')
          rw [wm_adds A, move_inst, if_pos rfl]
          have hq : fresh (w.g.inst k) { w.g.inst k with pool := p } tp' = [] := by
            refine fresh_quiet hn (hcs k) A.core (ext := []) he (by rw [List.append_nil]; rfl) ?_ (by simp)
            intro x hx
            obtain ⟨g', hg'⟩ := prods_added ((hcs k).inc fun _ => []) (List.mem_of_mem_filter hx)
            rw [genOf_eq hn ((hcs k).inc fun _ => []) hg', genOf_eq hn (A.core.inc fun _ => [])]
            rw [ha]; exact List.mem_append_left _ hg'
          rw [hq, List.append_nil, I.vis]
      · cases hs
    · cases hs
  | emit k tp =>
    simp only [step] at hs
    split at hs
    · rename_i e y ys hcur
      simp only [Fleet.step] at hs
      split at hs
      · rename_i hk
        rw [Option.map_map] at hs
        obtain ⟨p, hp, rfl⟩ := Option.map_eq_some_iff.1 hs
        have G := goes_emit hn (hcs k) (v := y) hp
        have ha : p.added = (w.g.inst k).pool.added := added_step hp (by intro e h; cases h)
        have hd : p.done = (w.g.inst k).pool.done := done_step hp rfl
        have hen : p.ended = (w.g.inst k).pool.ended := by
          rcases Marks.ended_step hp with ⟨h1, -⟩ | ⟨_, _, _, h1, _⟩
          · exact h1
          · cases h1
        have hept : e.part = tp := by
          obtain ⟨fin, pre, K⟩ := I.cells k tp
          exact (K.mem (List.mem_append_right _ (by rw [hcur]; simp [todo]))).1
        have hch : ∀ tp', ({ pool := p, prods := (w.g.inst k).prods ++ [(e, y)] } : Inc).changes tp' =
            (w.g.inst k).changes tp' ++ if tp' = tp then [(e, y)] else [] := by
          intro tp'
          unfold Inc.changes
          rw [List.filter_append]
          by_cases ht : tp' = tp
          · subst ht; simp [hept]
          · have : ¬ tp = tp' := fun h => ht h.symm
            simp [hept, ht, this]
        have cell : ∀ tp', ∃ fin pre, CellAt a src val tp' { pool := p, prods := (w.g.inst k).prods ++ [(e, y)] } (w.g.work k tp')
            (put w.st k tp (a.apply (w.st k tp) y) k tp') (w.queue k tp') (put w.cur k tp (some (e, ys)) k tp') fin pre := by
          intro tp'
          obtain ⟨fin, pre, K⟩ := I.cells k tp'
          rw [put_eq, put_eq]
          by_cases ht : tp' = tp
          · subst ht
            rw [if_pos ⟨rfl, rfl⟩, if_pos ⟨rfl, rfl⟩]
            rw [hcur] at K
            exact ⟨fin, _, K.emit ha (by rw [hch, if_pos rfl]) hd⟩
          · rw [if_neg (fun h => ht h.2), if_neg (fun h => ht h.2)]
            exact ⟨fin, pre, K.same ha (by rw [hch, if_neg ht, List.append_nil]) (by rw [hd]; exact K.open_)⟩
        refine ⟨fun j tp' => ?_, fun tp' => ?_⟩
        · show ∃ fin pre, CellAt a src val tp' ((w.g.move k _).inst j) (w.g.work j tp') (put w.st k tp (a.apply (w.st k tp) y) j tp')
            (w.queue j tp') (put w.cur k tp (some (e, ys)) j tp') fin pre
          rw [move_inst]
          by_cases hj : j = k
          · subst hj; rw [if_pos rfl]; exact cell tp'
          · rw [if_neg hj, put_eq, put_eq, if_neg (fun h => hj h.1), if_neg (fun h => hj h.1)]
            exact I.cells j tp'
        · show w.vis tp' ++ fresh (w.g.inst k) ((w.g.move k _).inst k) tp' = outsAt a src val tp' ((w.g.move k _).wm tp')
          rw [move_inst, if_pos rfl]
          obtain ⟨fin, pre, K⟩ := cell tp'
          refine vis_goes hn hsrc I hk G K (.inl ⟨hen, _, hch tp', ?_⟩)
          intro x hx
          split at hx
          · rw [List.mem_singleton] at hx
            subst hx
            obtain ⟨g, hg, hne, -⟩ := C02_records_in_their_transaction hn (hcs k).reach hp
            rw [genOf_eq hn (G.core.inc fun _ => []) (x := (e, y)) (g := g) (by show (e, g) ∈ p.added; rw [ha]; exact hg)]
            rw [(C04_in_order hn (hcs k).reach).1, List.mem_range] at hne
            omega
          · simp at hx
      · cases hs
    · cases hs
  | finish k tp =>
    simp only [step] at hs
    split at hs
    · rename_i e hcur
      simp only [Fleet.step] at hs
      split at hs
      · rename_i hk
        rw [Option.map_map] at hs
        obtain ⟨p, hp, rfl⟩ := Option.map_eq_some_iff.1 hs
        have G := goes_pool hn (hcs k) hk.2 hp
        obtain ⟨hd, -, ha⟩ := done_complete hp
        have hids := (C04_in_order hn (hcs k).reach).2.2.2
        have hem : e.part = tp ∧ ∃ g, (e, g) ∈ (w.g.inst k).pool.added := by
          obtain ⟨fin, pre, K⟩ := I.cells k tp
          exact K.mem (List.mem_append_right _ (by rw [hcur]; simp [todo]))
        have inj : ∀ d g', (d, g') ∈ (w.g.inst k).pool.added → d.id = e.id → d = e := by
          intro d g' h1 h2
          obtain ⟨g, hg⟩ := hem.2
          exact congrArg Prod.fst (seen_eq.inj_of_nodup hids h1 hg h2)
        have cell : ∀ tp', ∃ fin pre, CellAt a src val tp' { w.g.inst k with pool := p } (w.g.work k tp')
            (w.st k tp') (w.queue k tp') (put w.cur k tp none k tp') fin pre := by
          intro tp'
          obtain ⟨fin, pre, K⟩ := I.cells k tp'
          rw [put_eq]
          by_cases ht : tp' = tp
          · subst ht
            rw [if_pos ⟨rfl, rfl⟩]
            rw [hcur] at K
            refine ⟨fin ++ [e], [], K.finish (hsrc tp') ha rfl ?_⟩
            intro d hdq hdd
            have hdd : d.id ∈ p.done := hdd
            rw [hd] at hdd
            rcases List.mem_append.1 hdd with h | h
            · exact K.open_ d (List.mem_append_right _ hdq) h
            · rw [List.mem_singleton] at h
              obtain ⟨-, g', hg'⟩ := K.mem (List.mem_append_right _ (List.mem_append_right _ hdq))
              have := inj d g' hg' h
              subst this
              have hnd : (fin ++ todo (some (d, [])) (w.queue k tp')).Nodup := by
                rw [← K.evs]
                have h1 : ((w.g.inst k).pool.added.map Prod.fst).Nodup := by
                  have : (w.g.inst k).pool.added.map (fun x => x.1.id) = ((w.g.inst k).pool.added.map Prod.fst).map Ev.id := by
                    rw [List.map_map]; rfl
                  rw [this] at hids
                  exact List.Nodup.of_map _ hids
                exact h1.sublist (List.filter_sublist.map _)
              have h2 := (List.nodup_append.1 hnd).2.1
              exact (List.nodup_cons.1 h2).1 hdq
          · rw [if_neg (fun h => ht h.2)]
            refine ⟨fin, pre, K.same ha rfl ?_⟩
            intro d hdt hdd
            have hdd : d.id ∈ p.done := hdd
            rw [hd] at hdd
            rcases List.mem_append.1 hdd with h | h
            · exact K.open_ d hdt h
            · rw [List.mem_singleton] at h
              obtain ⟨hdp, g', hg'⟩ := K.mem (List.mem_append_right _ hdt)
              have := inj d g' hg' h
              subst this
              exact ht (hdp.symm.trans hem.1)
        refine ⟨fun j tp' => ?_, fun tp' => ?_⟩
        · show ∃ fin pre, CellAt a src val tp' ((w.g.move k _).inst j) (w.g.work j tp') (w.st j tp')
            (w.queue j tp') (put w.cur k tp none j tp') fin pre
          rw [move_inst]
          by_cases hj : j = k
          · subst hj; rw [if_pos rfl]; exact cell tp'
          · rw [if_neg hj, put_eq, if_neg (fun h => hj h.1)]
            exact I.cells j tp'
        · show w.vis tp' ++ fresh (w.g.inst k) ((w.g.move k _).inst k) tp' = outsAt a src val tp' ((w.g.move k _).wm tp')
          rw [move_inst, if_pos rfl]
          obtain ⟨fin, pre, K⟩ := cell tp'
          exact vis_goes hn hsrc I hk.1 G K (.inr rfl)
      · cases hs
    · cases hs
  | pool k l =>
    simp only [step] at hs
    split at hs
    · rename_i hl
      simp only [Fleet.step] at hs
      split at hs
      · rename_i hk
        rw [Option.map_map] at hs
        obtain ⟨p, hp, rfl⟩ := Option.map_eq_some_iff.1 hs
        have G := goes_pool hn (hcs k) hk.2 hp
        have hd := done_step hp hl
        have ha : p.added = (w.g.inst k).pool.added := added_step hp (by rintro e rfl; simp [internal] at hk)
        have cell : ∀ tp', ∃ fin pre, CellAt a src val tp' { w.g.inst k with pool := p } (w.g.work k tp')
            (w.st k tp') (w.queue k tp') (w.cur k tp') fin pre := by
          intro tp'
          obtain ⟨fin, pre, K⟩ := I.cells k tp'
          exact ⟨fin, pre, K.same ha rfl (fun e he h => K.open_ e he (by rw [← hd]; exact h))⟩
        refine ⟨fun j tp' => ?_, fun tp' => ?_⟩
        · show ∃ fin pre, CellAt a src val tp' ((w.g.move k _).inst j) (w.g.work j tp') (w.st j tp')
            (w.queue j tp') (w.cur j tp') fin pre
          rw [move_inst]
          by_cases hj : j = k
          · subst hj; rw [if_pos rfl]; exact cell tp'
          · rw [if_neg hj]
            exact I.cells j tp'
        · show w.vis tp' ++ fresh (w.g.inst k) ((w.g.move k _).inst k) tp' = outsAt a src val tp' ((w.g.move k _).wm tp')
          rw [move_inst, if_pos rfl]
          obtain ⟨fin, pre, K⟩ := cell tp'
          exact vis_goes hn hsrc I hk.1 G K (.inr rfl)
      · cases hs
    · cases hs

theorem inv_calm (hn : 0 < c.poolSize) (hsrc : ∀ tp, (src tp).Pairwise (· < ·)) (h : Calm c a src val w) : Inv c a src val w := by
  induction h with
  | init => exact inv_init
  | step x _ ho hs ih => exact inv_step hn hsrc ih ho hs

end Verif.Replica
