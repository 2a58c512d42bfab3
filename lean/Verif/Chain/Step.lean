import Verif.Chain.Sim
/-
The pool with pointers and the pool with lists make the same steps: the labels that concern the events of nodes.
-/
set_option linter.unusedSectionVars false
set_option linter.unusedSimpArgs false
set_option linter.unusedVariables false
namespace Verif.Chain
open Verif.Eos

variable {n : Nat} {s : St} {evs : Nat → List Ev} {l : List Ev}

theorem tail_ne (r : Rel n s evs l) {e : Ev} (he : (s.heap e.id).isSome = false) {p tp : Nat} {d : Dll} (hd : (s.cur p).get tp = some d) :
    d.tail ≠ e.id := by
  intro hc
  have h := (r.newest p tp).head
  rw [hd] at h
  simp only [Option.map_some] at h
  cases hx : ((evs p).filter fun e => e.part = tp).reverse.head? with
  | none => rw [hx] at h; simp at h
  | some x =>
    rw [hx] at h
    simp only [Option.map_some, Option.some.injEq] at h
    have hm := List.mem_of_head? hx
    rw [List.mem_reverse, List.mem_filter] at hm
    have := heap_mem r hm.1
    rw [← h, hc, he] at this
    cases this

/-- What `addEventContext` does to the objects and to the map. -/
structure Added (s : St) (e : Ev) (s' : St) : Prop where
  self : s'.heap e.id = some ⟨e.part, e.off, ((s.cur s.q.onDeck).get e.part).map Dll.tail, none⟩
  old : ∀ i, i ≠ e.id → ∀ o, s.heap i = some o → ∃ o', s'.heap i = some o' ∧ o'.part = o.part ∧ o'.off = o.off ∧ o'.prev = o.prev
  same : ∀ i, i ≠ e.id → ((s.cur s.q.onDeck).get e.part).map Dll.tail ≠ some i → s'.heap i = s.heap i
  tail : ∀ t, ((s.cur s.q.onDeck).get e.part).map Dll.tail = some t → ∀ o, s.heap t = some o → s'.heap t = some { o with next := some e.id }
  cur : s'.cur = upd s.cur s.q.onDeck ((s.cur s.q.onDeck).put e.part
    ⟨(((s.cur s.q.onDeck).get e.part).map Dll.root).getD e.id, e.id⟩)
  ptr : s'.ptr = s.ptr
  next : s'.next = s.next
  pool : s'.q = { s.q with
    nodes := upd s.q.nodes s.q.onDeck { s.q.nodes s.q.onDeck with cnt := (s.q.nodes s.q.onDeck).cnt + 1 }
    fwd := .added e
    added := s.q.added ++ [(e, s.q.gen)] }

theorem added_spec {e : Ev} (ht : ∀ d, (s.cur s.q.onDeck).get e.part = some d → d.tail ≠ e.id) : Added s e (addEvent s e) := by
  unfold addEvent
  cases hd : (s.cur s.q.onDeck).get e.part with
  | none =>
    simp only
    constructor <;> simp only [hd]
    · simp [upd]
    · intro i hi o ho; simp [upd, hi, ho]
    · intro i hi _; simp [upd, hi]
    · simp
    · simp
  | some d =>
    have ht' := ht d hd
    have ht'' : ¬ e.id = d.tail := fun h => ht' h.symm
    simp only
    constructor <;> simp only [hd]
    · simp [upd, setNext, ht'']
    · intro i hi o ho
      unfold setNext
      by_cases h : i = d.tail
      · subst h
        simp [upd, hi, ho]
      · simp [upd, hi, ho, h]
    · intro i hi h
      simp only [Option.map_some, ne_eq, Option.some.injEq] at h
      have h' : ¬ i = d.tail := fun h1 => h h1.symm
      simp [upd, setNext, hi, h']
    · intro t h o ho
      simp only [Option.map_some, Option.some.injEq] at h
      subst h
      simp [upd, setNext, ht', ho]
    · simp

theorem filter_snoc_same (a : List Ev) (e : Ev) : (a ++ [e]).filter (fun x => x.part = e.part) = a.filter (fun x => x.part = e.part) ++ [e] := by
  simp [List.filter_append]

theorem filter_snoc_ne (a : List Ev) (e : Ev) {tp : Nat} (h : e.part ≠ tp) : (a ++ [e]).filter (fun x => x.part = tp) = a.filter fun x => x.part = tp := by
  simp [List.filter_append, h]

theorem rel_add (r : Rel n s evs l) {e : Ev} (he : (s.heap e.id).isSome = false) :
    Rel n (addEvent s e) (upd evs s.q.onDeck (evs s.q.onDeck ++ [e])) l := by
  have A := added_spec (s := s) (e := e) fun d hd => tail_ne r he hd
  have hne : ∀ p, ∀ x ∈ evs p, x.id ≠ e.id := by
    intro p x hx hc
    have := heap_mem r hx
    rw [hc, he] at this
    cases this
  -- an object that is not the last one of this partition of the node on deck is left alone
  have hsame : ∀ p tp, ∀ x ∈ evs p, x.part = tp → (p ≠ s.q.onDeck ∨ tp ≠ e.part) → (addEvent s e).heap x.id = s.heap x.id := by
    intro p tp x hx hp hor
    apply A.same _ (hne p x hx)
    intro hc
    have h := (r.newest s.q.onDeck e.part).head
    rw [hc] at h
    cases hy : ((evs s.q.onDeck).filter fun x => x.part = e.part).reverse.head? with
    | none => rw [hy] at h; simp at h
    | some y =>
      rw [hy] at h
      simp only [Option.map_some, Option.some.injEq] at h
      have hm := List.mem_of_head? hy
      rw [List.mem_reverse, List.mem_filter] at hm
      have hpp := r.apart p s.q.onDeck x y hx hm.1 h
      subst hpp
      have hxy : x = y := List.inj_on_of_nodup_map (r.ids _) hx hm.1 h
      subst hxy
      rcases hor with h1 | h1
      · exact h1 rfl
      · exact h1 (hp.symm.trans (by simpa using hm.2))
  have hprev : ∀ {i : Option Nat} {m : List Ev}, Walk Obj.prev s.heap i m → Walk Obj.prev (addEvent s e).heap i m := by
    intro i m w
    apply w.frame
    intro x hx o ho
    have hxe : x.id ≠ e.id := by
      intro hc
      have := w.isSome x hx
      rw [hc, he] at this
      cases this
    exact A.old _ hxe o ho
  constructor
  · rw [A.pool]; exact ⟨r.lt.deck, r.lt.free, r.lt.cq, r.lt.com⟩
  · rw [A.next]; exact r.ring
  · intro p
    rw [A.cur]
    unfold upd
    split
    · exact keys_put _ _ _ (r.keys _)
    · exact r.keys p
  · intro i
    rw [A.pool]
    simp only [List.map_append, List.map_cons, List.map_nil, List.mem_append, List.mem_singleton]
    rw [← r.dom i]
    by_cases hi : i = e.id
    · subst hi; rw [A.self]; simp
    · simp only [hi, or_false]
      cases ho : s.heap i with
      | some o =>
        obtain ⟨o', h1, _⟩ := A.old i hi o ho
        rw [h1]; simp
      | none =>
        rw [A.same i hi, ho]
        intro hc
        have h := (r.newest s.q.onDeck e.part).head
        rw [hc] at h
        cases hy : ((evs s.q.onDeck).filter fun x => x.part = e.part).reverse.head? with
        | none => rw [hy] at h; simp at h
        | some y =>
          rw [hy] at h
          simp only [Option.map_some, Option.some.injEq] at h
          have hm := List.mem_of_head? hy
          rw [List.mem_reverse, List.mem_filter] at hm
          have := heap_mem r hm.1
          rw [← h, ho] at this
          cases this
  · intro p tp
    rw [A.cur]
    by_cases hp : p = s.q.onDeck
    · subst hp
      rw [upd_same, upd_same, get_put]
      by_cases ht : tp = e.part
      · subst ht
        rw [if_pos rfl, filter_snoc_same, List.reverse_append]
        exact .cons A.self rfl rfl (hprev (r.newest _ _))
      · rw [if_neg ht, filter_snoc_ne _ _ (fun h => ht h.symm)]
        exact hprev (r.newest _ _)
    · rw [upd_ne _ _ hp, upd_ne _ _ hp]
      exact hprev (r.newest _ _)
  · intro p tp
    rw [A.cur]
    have hother : (p ≠ s.q.onDeck ∨ tp ≠ e.part) →
        Walk Obj.next (addEvent s e).heap (((s.cur p).get tp).map Dll.root) ((evs p).filter fun x => x.part = tp) := by
      intro hor
      apply (r.oldest p tp).frame
      intro x hx o ho
      rw [List.mem_filter] at hx
      exact ⟨o, by rw [hsame p tp x hx.1 (by simpa using hx.2) hor]; exact ho, rfl, rfl, rfl⟩
    by_cases hp : p = s.q.onDeck
    · subst hp
      rw [upd_same, upd_same, get_put]
      by_cases ht : tp = e.part
      · subst ht
        rw [if_pos rfl, filter_snoc_same]
        have hold := r.oldest s.q.onDeck e.part
        have hnew := (r.newest s.q.onDeck e.part).head
        have hself : Walk Obj.next (addEvent s e).heap (some e.id) [e] := .cons A.self rfl rfl .nil
        rcases List.eq_nil_or_concat ((evs s.q.onDeck).filter fun x => x.part = e.part) with hnil | ⟨pre, z, hz⟩
        · rw [hnil] at hold ⊢
          have h := hold.head
          simp only [List.head?_nil, Option.map_none, Option.map_eq_none_iff] at h
          simp only [h, Option.map_none, Option.getD_none, Option.map_some, List.nil_append]
          exact hself
        · rw [List.concat_eq_append] at hz
          rw [hz] at hold hnew ⊢
          simp only [List.reverse_append, List.reverse_cons, List.reverse_nil, List.nil_append, List.cons_append, List.head?_cons,
            Option.map_some] at hnew
          have hroot : some ((((s.cur s.q.onDeck).get e.part).map Dll.root).getD e.id) = ((s.cur s.q.onDeck).get e.part).map Dll.root := by
            cases hg : (s.cur s.q.onDeck).get e.part with
            | none => rw [hg] at hnew; simp at hnew
            | some d => rfl
          simp only [Option.map_some]
          rw [hroot]
          have hzm : z ∈ evs s.q.onDeck := by
            have : z ∈ (evs s.q.onDeck).filter fun x => x.part = e.part := by rw [hz]; simp
            exact (List.mem_filter.1 this).1
          refine hold.snoc ?_ ?_
          · intro d hd
            have hdm : d ∈ evs s.q.onDeck := by
              have : d ∈ (evs s.q.onDeck).filter fun x => x.part = e.part := by rw [hz]; simp [hd]
              exact (List.mem_filter.1 this).1
            apply A.same _ (hne _ d hdm)
            rw [hnew]
            intro hc
            simp only [Option.some.injEq] at hc
            have hdz : z = d := List.inj_on_of_nodup_map (r.ids _) hzm hdm hc
            subst hdz
            have hnd := (r.ids s.q.onDeck).of_map
            have hnd' := hnd.filter (fun x : Ev => decide (x.part = e.part))
            rw [hz, List.nodup_append] at hnd'
            exact hnd'.2.2 z hd z (by simp) rfl
          · intro o ho
            exact ⟨_, A.tail _ hnew o ho, rfl, rfl, hself⟩
      · rw [if_neg ht, filter_snoc_ne _ _ (fun h => ht h.symm)]
        exact hother (Or.inr ht)
    · rw [upd_ne _ _ hp, upd_ne _ _ hp]
      exact hother (Or.inl hp)
  · intro hf
    rw [A.ptr]
    rw [A.pool] at hf
    exact hprev (r.left hf)
  · intro p p' x x' hx hx' hid
    have hcl : ∀ {p x}, x ∈ upd evs s.q.onDeck (evs s.q.onDeck ++ [e]) p → x ∈ evs p ∨ (x = e ∧ p = s.q.onDeck) := by
      intro p x hx
      unfold upd at hx
      split at hx
      · rename_i h
        rcases List.mem_append.1 hx with h1 | h1
        · exact Or.inl (h ▸ h1)
        · exact Or.inr ⟨List.mem_singleton.1 h1, h⟩
      · exact Or.inl hx
    rcases hcl hx with h1 | ⟨h1, h2⟩ <;> rcases hcl hx' with h3 | ⟨h3, h4⟩
    · exact r.apart p p' x x' h1 h3 hid
    · exact absurd (h3 ▸ hid) (hne p x h1)
    · exact absurd (h1 ▸ hid.symm) (hne p' x' h3)
    · exact h2.trans h4.symm
  · intro p
    unfold upd
    split
    · rw [List.map_append, List.nodup_append]
      refine ⟨r.ids _, by simp, ?_⟩
      intro a ha b hb
      obtain ⟨x, hx, rfl⟩ := List.mem_map.1 ha
      simp only [List.map_cons, List.map_nil, List.mem_singleton] at hb
      rw [hb]
      exact hne _ x hx
    · exact r.ids p

/-- The states that correspond to each other. -/
def Match (n : Nat) (s : St) (a : Pool) : Prop := ∃ evs l, a = glue s.q evs l ∧ Rel n s evs l

theorem glue_add (q : Pool) (evs : Nat → List Ev) (l : List Ev) (e : Ev) (s' : St) (A : Added s e s') (hq : q = s.q) :
    ({ glue q evs l with
        nodes := upd (glue q evs l).nodes (glue q evs l).onDeck { (glue q evs l).nodes (glue q evs l).onDeck with
          evs := ((glue q evs l).nodes (glue q evs l).onDeck).evs ++ [e], cnt := ((glue q evs l).nodes (glue q evs l).onDeck).cnt + 1 }
        fwd := .added e
        added := (glue q evs l).added ++ [(e, (glue q evs l).gen)] } : Pool) = glue s'.q (upd evs q.onDeck (evs q.onDeck ++ [e])) l := by
  rw [A.pool]
  subst hq
  unfold glue
  simp only [Pool.mk.injEq, and_true, true_and]
  funext p
  unfold upd
  split
  · rename_i h; subst h; rfl
  · rfl

theorem sim_add {c : Cfg} (r : Rel c.poolSize s evs l) (e : Ev) :
    Option.Rel (Match c.poolSize) (step c s (.add e)) (Eos.step c (glue s.q evs l) (.add e)) := by
  simp only [step, Eos.step]
  rw [show (glue s.q evs l).fwd = s.q.fwd from rfl, show (glue s.q evs l).com = setCur l s.q.com from rfl,
    show (glue s.q evs l).added = s.q.added from rfl]
  have main : Option.Rel (Match c.poolSize) (if (s.heap e.id).isSome then none else some (addEvent s e))
      (if e.id ∈ s.q.added.map (fun x => x.1.id) then none else some
      { glue s.q evs l with
        nodes := upd (glue s.q evs l).nodes (glue s.q evs l).onDeck { (glue s.q evs l).nodes (glue s.q evs l).onDeck with
          evs := ((glue s.q evs l).nodes (glue s.q evs l).onDeck).evs ++ [e], cnt := ((glue s.q evs l).nodes (glue s.q evs l).onDeck).cnt + 1 }
        fwd := .added e
        added := s.q.added ++ [(e, (glue s.q evs l).gen)] }) := by
    by_cases h : (s.heap e.id).isSome = true
    · rw [if_pos h, if_pos ((r.dom _).1 h)]; exact .none
    · rw [if_neg h, if_neg (fun hc => h ((r.dom _).2 hc))]
      have h' : (s.heap e.id).isSome = false := by simpa using h
      refine .some ⟨_, l, ?_, rel_add r h'⟩
      exact glue_add s.q evs l e _ (added_spec fun d hd => tail_ne r h' hd) rfl
  simp only at main
  rw [show (glue s.q evs l).com = setCur l s.q.com from rfl] at main
  cases s.q.fwd with
  | idle =>
    generalize s.q.com = x at main ⊢
    cases x <;> first | exact main | exact .none
  | _ => exact .none

theorem sim_begin {c : Cfg} (r : Rel c.poolSize s evs l) (order : List Nat) :
    Option.Rel (Match c.poolSize) (step c s (.beginCommit order)) (Eos.step c (glue s.q evs l) (.beginCommit order)) := by
  simp only [step, Eos.step]
  rw [show (glue s.q evs l).com = setCur l s.q.com from rfl]
  cases hc : s.q.com with
  | begun p =>
    simp only [setCur]
    by_cases h : IsOrder order (s.cur p).keys
    · rw [if_pos h, if_pos ((order_iff r p order).1 h)]
      refine .some ⟨evs, [], ?_, ?_⟩
      · unfold Eos.beginCommit beginCommit
        rw [show (fun tp => if ((glue s.q evs l).nodes p).has tp then some p else (glue s.q evs l).owner tp) =
          fun tp => if ((s.cur p).get tp).isSome then some p else s.q.owner tp by
            funext tp; rw [has_glue r]; rfl]
        unfold glue
        simp only [upd_glue, setCur]
      · exact { r with
          lt := ⟨r.lt.deck, r.lt.free, r.lt.cq, fun x hx => r.lt.com x (by rw [hc]; exact hx)⟩
          left := fun _ => .nil }
    · rw [if_neg h, if_neg (fun hx => h ((order_iff r p order).2 hx))]; exact .none
  | _ => exact .none

theorem sim_wait {c : Cfg} (r : Rel c.poolSize s evs l) :
    Option.Rel (Match c.poolSize) (step c s .wait) (Eos.step c (glue s.q evs l) .wait) := by
  simp only [step, Eos.step]
  rw [show (glue s.q evs l).com = setCur l s.q.com from rfl]
  cases hc : s.q.com with
  | fin p cur flag rest =>
    simp only [setCur]
    have w := r.left (by rw [hc]; rfl)
    have hlt : p < c.poolSize := r.lt.com p (by rw [hc]; rfl)
    generalize hptr : s.ptr = i at w
    cases w with
    | nil =>
      cases rest with
      | nil => exact .none
      | cons tp rest =>
        refine .some ⟨evs, ((evs p).filter fun e => e.part = tp).reverse, ?_, ?_⟩
        · unfold glue; simp only [setCur]; rfl
        · exact { r with
            lt := ⟨r.lt.deck, r.lt.free, r.lt.cq, fun x hx => by simp only [nodeOf, Option.some.injEq] at hx; exact hx ▸ hlt⟩
            left := fun _ => r.newest p tp }
    | @cons e m o h1 h2 h3 h4 =>
      simp only [h1]
      rw [show (glue s.q evs (e :: m)).done = s.q.done from rfl]
      by_cases hd : e.id ∈ s.q.done
      · rw [if_pos hd, if_pos hd, h3, h2]
        cases flag with
        | true =>
          simp only
          refine .some ⟨evs, m, ?_, ?_⟩
          · unfold glue; simp only [setCur]
          · exact { r with
              lt := ⟨r.lt.deck, r.lt.free, r.lt.cq, fun x hx => by simp only [nodeOf, Option.some.injEq] at hx; exact hx ▸ hlt⟩
              left := fun _ => h4 }
        | false =>
          cases e.off with
          | none =>
            simp only
            refine .some ⟨evs, m, ?_, ?_⟩
            · unfold glue; simp only [setCur]
            · exact { r with
                lt := ⟨r.lt.deck, r.lt.free, r.lt.cq, fun x hx => by simp only [nodeOf, Option.some.injEq] at hx; exact hx ▸ hlt⟩
                left := fun _ => h4 }
          | some k =>
            simp only
            obtain ⟨e1, e2, e3, e4, e5⟩ := produce_frame s.q p e.part (.commit e.part (k + 1))
            refine .some ⟨evs, m, ?_, ?_⟩
            · rw [produce_glue]
              unfold glue; simp only [setCur]
            · exact { r with
                lt := ⟨by simp only [e1]; exact r.lt.deck, by simp only [e2]; exact r.lt.free, by simp only [e3]; exact r.lt.cq,
                  fun x hx => by simp only [nodeOf, Option.some.injEq] at hx; exact hx ▸ hlt⟩
                dom := by simp only [e5]; exact r.dom
                left := fun _ => h4 }
      · rw [if_neg hd, if_neg hd]; exact .none
  | _ => exact .none

theorem sim_end {c : Cfg} (r : Rel c.poolSize s evs l) (order : List Nat) :
    Option.Rel (Match c.poolSize) (step c s (.endTxn order)) (Eos.step c (glue s.q evs l) (.endTxn order)) := by
  simp only [step, Eos.step]
  rw [show (glue s.q evs l).com = setCur l s.q.com from rfl]
  cases hc : s.q.com with
  | fin p cur flag rest =>
    simp only [setCur]
    have w := r.left (by rw [hc]; rfl)
    have hlt : p < c.poolSize := r.lt.com p (by rw [hc]; rfl)
    generalize hptr : s.ptr = i at w
    cases w with
    | nil =>
      cases rest with
      | cons tp rest => exact .none
      | nil =>
        simp only
        by_cases h : IsOrder order (s.cur p).keys
        · rw [if_pos h, if_pos ((order_iff r p order).1 h)]
          refine .some ⟨evs, [], ?_, ?_⟩
          · unfold glue; simp only [setCur]
          · exact { r with
              lt := ⟨r.lt.deck, r.lt.free, r.lt.cq, fun x hx => by simp only [nodeOf, Option.some.injEq] at hx; exact hx ▸ hlt⟩
              left := fun hf => by simp [isFin] at hf }
        · rw [if_neg h, if_neg (fun hx => h ((order_iff r p order).2 hx))]; exact .none
    | cons h1 h2 h3 h4 => cases rest <;> exact .none
  | _ => exact .none

theorem rel_del (r : Rel n s evs l) (p tp : Nat) (q' : Pool) (hq : Lt n q') (ha : q'.added = s.q.added) (hf : isFin q'.com = false) :
    Rel n { s with q := q', cur := upd s.cur p ((s.cur p).del tp) } (upd evs p ((evs p).filter fun e => e.part ≠ tp)) l := by
  have hsub : ∀ k, ∀ x ∈ upd evs p ((evs p).filter fun e => e.part ≠ tp) k, x ∈ evs k := by
    intro k x hx
    unfold upd at hx
    split at hx
    · rename_i h; exact h ▸ (List.mem_filter.1 hx).1
    · exact hx
  have hfil : ∀ tp', ((evs p).filter fun e => e.part ≠ tp).filter (fun e => e.part = tp') =
      if tp' = tp then [] else (evs p).filter fun e => e.part = tp' := by
    intro tp'
    rw [List.filter_filter]
    split
    · rename_i h
      subst h
      rw [List.filter_eq_nil_iff]
      simp
    · rename_i h
      apply List.filter_congr
      intro x _
      by_cases hx : x.part = tp'
      · simp [hx, h]
      · simp [hx]
  refine { lt := hq, ring := r.ring, keys := ?_, dom := ?_, newest := ?_, oldest := ?_, left := ?_, apart := ?_, ids := ?_ }
  · intro k
    simp only
    unfold upd
    split
    · exact keys_del _ _ (r.keys p)
    · exact r.keys k
  · simp only [ha]; exact r.dom
  · intro k tp'
    simp only
    by_cases hk : k = p
    · subst hk
      rw [upd_same, upd_same, get_del, hfil]
      split
      · exact .nil
      · exact r.newest k tp'
    · rw [upd_ne _ _ hk, upd_ne _ _ hk]; exact r.newest k tp'
  · intro k tp'
    simp only
    by_cases hk : k = p
    · subst hk
      rw [upd_same, upd_same, get_del, hfil]
      split
      · exact .nil
      · exact r.oldest k tp'
    · rw [upd_ne _ _ hk, upd_ne _ _ hk]; exact r.oldest k tp'
  · intro h; simp only [hf] at h; cases h
  · intro k k' x x' hx hx' hid
    exact r.apart k k' x x' (hsub k x hx) (hsub k' x' hx') hid
  · intro k
    unfold upd
    split
    · exact (r.ids p).sublist (List.filter_sublist.map _)
    · exact r.ids k

theorem sim_release {c : Cfg} (r : Rel c.poolSize s evs l) :
    Option.Rel (Match c.poolSize) (step c s .release) (Eos.step c (glue s.q evs l) .release) := by
  simp only [step, Eos.step]
  rw [show (glue s.q evs l).com = setCur l s.q.com from rfl]
  cases hc : s.q.com with
  | relinq p rest =>
    simp only [setCur]
    have hlt : p < c.poolSize := r.lt.com p (by rw [hc]; rfl)
    cases rest with
    | nil =>
      simp only
      refine .some ⟨evs, l, ?_, ?_⟩
      · unfold glue
        simp only [setCur, upd_glue]
        rfl
      · exact { r with
          lt := ⟨r.lt.deck, r.lt.free, r.lt.cq, fun x hx => by simp only [nodeOf, Option.some.injEq] at hx; exact hx ▸ hlt⟩
          left := fun hf => by simp [isFin] at hf }
    | cons tp rest =>
      simp only
      have hfind : search s.next (fun k => ((s.cur k).get tp).isSome) p c.poolSize (s.next p) =
          (ring c.poolSize p).find? fun k => ((glue s.q evs l).nodes k).has tp := by
        rw [search_ring r.ring hlt]
        congr 1
        funext k
        rw [has_glue r]
      unfold relinquish Eos.relinquish
      rw [hfind]
      refine .some ⟨upd evs p ((evs p).filter fun e => e.part ≠ tp), l, ?_, ?_⟩
      · cases (ring c.poolSize p).find? fun k => ((glue s.q evs l).nodes k).has tp with
        | none =>
          unfold glue
          simp only [setCur, Pool.mk.injEq, and_true, true_and]
          funext k
          unfold upd
          split
          · rename_i h; subst h; rfl
          · rfl
        | some x =>
          unfold glue flushPartition
          simp only [setCur, Pool.mk.injEq, and_true, true_and]
          funext k
          unfold upd
          by_cases h : k = p
          · subst h
            simp only [if_true]
            split
            · rename_i h; subst h; rfl
            · rfl
          · simp only [h, if_false]
            split
            · rename_i h; subst h; rfl
            · rfl
      · simp only
        apply rel_del (l := l) r p tp
        · cases (ring c.poolSize p).find? fun k => ((glue s.q evs l).nodes k).has tp <;>
            exact ⟨r.lt.deck, r.lt.free, r.lt.cq, fun x hx => by simp only [nodeOf, Option.some.injEq] at hx; exact hx ▸ hlt⟩
        · cases (ring c.poolSize p).find? fun k => ((glue s.q evs l).nodes k).has tp <;> rfl
        · rfl
  | _ => exact .none

theorem sim_step {c : Cfg} {a : Pool} (m : Match c.poolSize s a) (lab : Label) :
    Option.Rel (Match c.poolSize) (step c s lab) (Eos.step c a lab) := by
  obtain ⟨evs, l, rfl, r⟩ := m
  by_cases hp : plain lab = true
  · have h1 : step c s lab = (Eos.step c s.q lab).map fun q => { s with q := q } := by
      cases lab <;> first | rfl | simp [plain] at hp
    rw [h1, step_plain hp]
    cases hs : Eos.step c s.q lab with
    | none => exact .none
    | some q' =>
      obtain ⟨f1, f2, f3⟩ := plain_frame (n := c.poolSize) hp hs r.lt
      refine .some ⟨evs, l, rfl, ?_⟩
      exact { r with lt := f1, dom := by simp only [f2]; exact r.dom, left := fun h => r.left (f3 h) }
  · cases lab with
    | add e => exact sim_add r e
    | beginCommit o => exact sim_begin r o
    | wait => exact sim_wait r
    | endTxn o => exact sim_end r o
    | release => exact sim_release r
    | _ => simp [plain] at hp

theorem match_init {c : Cfg} (hn : 0 < c.poolSize) : Match c.poolSize (St.init c) (Pool.init c) := by
  refine ⟨fun _ => [], [], rfl, ?_⟩
  refine { lt := ⟨hn, ?_, ?_, ?_⟩, ring := fun p hp => ring_next hn hp, keys := ?_, dom := ?_, newest := ?_, oldest := ?_, left := ?_, apart := ?_, ids := ?_ }
  · intro p hp
    have := List.mem_of_mem_drop hp
    exact List.mem_range.1 this
  · intro p hp; cases hp
  · intro p hp; cases hp
  · intro p; exact List.nodup_nil
  · intro i; simp [St.init, Pool.init]
  · intro p tp; exact .nil
  · intro p tp; exact .nil
  · intro h; cases h
  · intro p p' e e' h; cases h
  · intro p; exact List.nodup_nil

theorem sim_run {c : Cfg} : ∀ (ls : List Label) {s : St} {a : Pool}, Match c.poolSize s a →
    Option.Rel (Match c.poolSize) (run c s ls) (Eos.run c a ls) := by
  intro ls
  induction ls with
  | nil => intro s a m; exact .some m
  | cons lab ls ih =>
    intro s a m
    simp only [run, Eos.run]
    have h := sim_step m lab
    cases hs : step c s lab <;> cases ha : Eos.step c a lab <;> rw [hs, ha] at h <;> cases h
    · exact .none
    · rename_i h; exact ih h

theorem match_agree {a : Pool} (m : Match n s a) : Agree s a := by
  obtain ⟨evs, l, rfl, r⟩ := m
  refine ⟨?_, r.newest, r.oldest, ?_⟩
  · unfold bare glue
    cases s.q.com <;> rfl
  · intro p cur flag rest h
    have h' : setCur l s.q.com = .fin p cur flag rest := h
    cases hc : s.q.com <;> rw [hc] at h' <;> simp only [setCur] at h' <;> cases h'
    exact r.left (by rw [hc]; rfl)

end Verif.Chain
