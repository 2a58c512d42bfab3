import Verif.Races.Model
/-
Proofs for `Verif.Races`: locks exclude each other, and each function accesses the guarded fields only with the locks of their rules.
-/
namespace Verif.Races

/-- Two accesses that must not happen at the same time. -/
def clash (a b : Acc) : Prop := ¬ (a = .read ∧ b = .read) ∧ ¬ (a = .atomic ∧ b = .atomic)

/-- The rule for each field: which locks an access needs. -/
def Rule (held : List (Lock × Bool)) : Field → Acc → Prop
  | .workers, _ => (.worker, true) ∈ held
  | .prepping, _ => (.prepping, true) ∈ held
  | .sets, _ => (.status, true) ∈ held
  | .member, _ => (.status, true) ∈ held
  | .stores, _ => (.stores, true) ∈ held
  | .waiters, _ => (.waiter, true) ∈ held
  | .watermarks, _ => (.marks, true) ∈ held
  | .pendingSyncs, _ => (.syncs, true) ∈ held
  | .owners, _ => (.owners, true) ∈ held
  | .batches, _ => (.batcher, true) ∈ held
  | .workerMap, _ => (.sched, true) ∈ held
  | .options, _ => (.msk, true) ∈ held
  | .maxKeys, .read => (.sched, true) ∈ held ∨ (.update, true) ∈ held
  | .maxKeys, _ => (.sched, true) ∈ held ∧ (.update, true) ∈ held
  | .parts n, .read => (.commit n, true) ∈ held ∨ (.loop, true) ∈ held ∧ (.part n, false) ∈ held
  | .parts n, _ => (.commit n, true) ∈ held ∧ ((.part n, true) ∈ held ∨ (.loop, true) ∈ held)
  | .state, a => a = .atomic
  | .depth, a => a = .atomic
  | .ready, a => a = .atomic
  | .buffer, _ => True
  | .counts, _ => True
  | .produceCnt _, _ => True
  | .channel, _ => True
  | .highestOffset, _ => True

/-- Every access follows its rule. -/
def Obeys : List (Lock × Bool) → List Instr → Prop
  | _, [] => True
  | held, .lock l :: is => Obeys ((l, true) :: held) is
  | held, .rlock l :: is => Obeys ((l, false) :: held) is
  | held, .unlock l :: is => Obeys (held.erase (l, true)) is
  | held, .runlock l :: is => Obeys (held.erase (l, false)) is
  | held, .acc f a :: is => Rule held f a ∧ Obeys held is

/-- The locks afterwards. -/
def after : List (Lock × Bool) → List Instr → List (Lock × Bool)
  | held, [] => held
  | held, .lock l :: is => after ((l, true) :: held) is
  | held, .rlock l :: is => after ((l, false) :: held) is
  | held, .unlock l :: is => after (held.erase (l, true)) is
  | held, .runlock l :: is => after (held.erase (l, false)) is
  | held, .acc _ _ :: is => after held is

theorem obeys_append (is js : List Instr) (held : List (Lock × Bool)) : Obeys held (is ++ js) ↔ Obeys held is ∧ Obeys (after held is) js := by
  induction is generalizing held with
  | nil => simp [Obeys, after]
  | cons i is ih => cases i <;> simp [Obeys, after, ih, and_assoc]

theorem after_append (is js : List Instr) (held : List (Lock × Bool)) : after held (is ++ js) = after (after held is) js := by
  induction is generalizing held with
  | nil => simp [after]
  | cons i is ih => cases i <;> simp [after, ih]

theorem flatten_ok (held : List (Lock × Bool)) (ls : List (List Instr)) (h : ∀ l ∈ ls, Obeys held l ∧ after held l = held) : Obeys held ls.flatten ∧ after held ls.flatten = held := by
  induction ls with
  | nil => simp [Obeys, after]
  | cons l ls ih =>
    have h1 := h l (by simp)
    have h2 := ih fun x hx => h x (by simp [hx])
    simp [obeys_append, after_append, h1, h2]

theorem replicate_ok (held : List (Lock × Bool)) (i : Instr) (n : Nat) (h : Obeys held [i] ∧ after held [i] = held) :
    Obeys held (List.replicate n i) ∧ after held (List.replicate n i) = held := by
  have := flatten_ok held (List.replicate n [i]) (by simp only [List.mem_replicate]; rintro l ⟨_, rfl⟩; exact h)
  have e : (List.replicate n [i]).flatten = List.replicate n i := by
    clear this
    induction n with
    | zero => rfl
    | succ n ih => simp [List.replicate_succ, ih]
  rwa [e] at this

/-- Inside a lock. -/
theorem within_ok {held : List (Lock × Bool)} {l : Lock} {is : List Instr} (h : Obeys ((l, true) :: held) is ∧ after ((l, true) :: held) is = (l, true) :: held) :
    Obeys held (within l is) ∧ after held (within l is) = held := by
  simp [within, Obeys, after, obeys_append, after_append, h]

theorem append_ok {held : List (Lock × Bool)} {is js : List Instr} (h : Obeys held is ∧ after held is = held) (h' : Obeys held js ∧ after held js = held) :
    Obeys held (is ++ js) ∧ after held (is ++ js) = held := by
  simp [obeys_append, after_append, h, h']

theorem stores_ok (held : List (Lock × Bool)) : Obeys held storesProg ∧ after held storesProg = held := within_ok (by simp [Obeys, after, Rule])
theorem waiter_ok (held : List (Lock × Bool)) : Obeys held waiterProg ∧ after held waiterProg = held := within_ok (by simp [Obeys, after, Rule])
theorem owners_ok (held : List (Lock × Bool)) (w : Bool) : Obeys held (ownersProg w) ∧ after held (ownersProg w) = held := within_ok (by cases w <;> simp [Obeys, after, Rule])
theorem prep_ok (held : List (Lock × Bool)) : Obeys held prepProg ∧ after held prepProg = held := by simp [Obeys, after, Rule, prepProg]
theorem cancel_ok (held : List (Lock × Bool)) : Obeys held cancelProg ∧ after held cancelProg = held := by simp [Obeys, after, Rule, cancelProg]
theorem enqueue_ok (held : List (Lock × Bool)) : Obeys held enqueueProg ∧ after held enqueueProg = held := by simp [Obeys, after, Rule, enqueueProg]

theorem assignOne_ok (held : List (Lock × Bool)) (h1 : (Lock.worker, true) ∈ held) (h2 : (Lock.prepping, true) ∈ held) (b : Branch) : Obeys held (assignOne b) ∧ after held (assignOne b) = held := by
  have hs := stores_ok held
  have hc : Obeys held (within .consumer prepProg) ∧ after held (within .consumer prepProg) = held := within_ok (prep_ok _)
  cases b <;> simp [assignOne, obeys_append, after_append, hs, hc, Obeys, after, Rule, h1, h2]

theorem revokeOne_ok (held : List (Lock × Bool)) (h1 : (Lock.worker, true) ∈ held) (k : Bool) : Obeys held (revokeOne k) ∧ after held (revokeOne k) = held := by
  have hs := stores_ok held
  cases k <;> simp [revokeOne, hs, Obeys, after, Rule, h1]

theorem rlocks (held : List (Lock × Bool)) (ms : List Nat) : Obeys held (ms.map fun m => Instr.rlock (.part m)) ∧
    after held (ms.map fun m => Instr.rlock (.part m)) = (ms.map fun m => (Lock.part m, false)).reverse ++ held := by
  induction ms generalizing held with
  | nil => simp [Obeys, after]
  | cons m ms ih => simp [Obeys, after, ih]

/-- After all locks of the other nodes have been released, the locks of before are left. -/
theorem runlocks (ms : List Nat) (H held : List (Lock × Bool)) (h : H.Perm ((ms.map fun m => (Lock.part m, false)) ++ held)) :
    Obeys H (ms.map fun m => Instr.runlock (.part m)) ∧ (after H (ms.map fun m => Instr.runlock (.part m))).Perm held := by
  induction ms generalizing H with
  | nil => simpa [Obeys, after] using h
  | cons m ms ih =>
    simp only [List.map_cons, Obeys, after]
    refine ih _ ?_
    have := h.erase (Lock.part m, false)
    simpa using this

theorem commit_ok (n : Nat) (others tps : List Nat) (ok : Bool) : Obeys [] (prog (.commit n others tps ok)) ∧ after [] (prog (.commit n others tps ok)) = [] := by
  have ho := fun held => owners_ok held true
  have hw : ∀ held, Obeys ((Lock.commit n, true) :: held) (within (.produce n) (.acc (.parts n) .read :: ownersProg true)) ∧
      after ((Lock.commit n, true) :: held) (within (.produce n) (.acc (.parts n) .read :: ownersProg true)) = (Lock.commit n, true) :: held := by
    intro held
    refine within_ok ?_
    simp only [Obeys, after, Rule, ho, and_true]
    simp
  cases ok
  · refine within_ok (within_ok ?_)
    refine append_ok (append_ok (hw _) ?_) ?_
    · simp [Obeys, after, Rule]
    · simp [Obeys, after]
  · have hf := flatten_ok ((others.map fun m => (Lock.part m, false)).reverse ++ [(Lock.commit n, true), (Lock.loop, true)])
      (tps.map fun k => ((others.take k).map lookAt).flatten ++ ownersProg true ++ [.acc (.parts n) .write]) (by
        intro l hl
        obtain ⟨k, _, rfl⟩ := List.mem_map.1 hl
        refine append_ok (append_ok (flatten_ok _ _ ?_) (ho _)) (by simp [Obeys, after, Rule])
        intro l hl
        obtain ⟨m, hm, rfl⟩ := List.mem_map.1 hl
        have hm' := List.mem_of_mem_take hm
        refine within_ok ?_
        have := ho ((Lock.produce m, true) :: ((others.map fun m => (Lock.part m, false)).reverse ++ [(Lock.commit n, true), (Lock.loop, true)]))
        simp only [Obeys, after, this, and_true, Rule]
        right
        simp [hm'])
    have hr := rlocks [(Lock.commit n, true), (Lock.loop, true)] others
    have hu := runlocks others ((others.map fun m => (Lock.part m, false)).reverse ++ [(Lock.commit n, true), (Lock.loop, true)]) [(Lock.commit n, true), (Lock.loop, true)]
      ((List.reverse_perm _).append_right _)
    have hx := (hu.2.erase (Lock.commit n, true)).erase (Lock.loop, true)
    have he : ((([(Lock.commit n, true), (Lock.loop, true)] : List (Lock × Bool)).erase (Lock.commit n, true)).erase (Lock.loop, true)) = [] := by simp
    rw [he, List.perm_nil] at hx
    have h1 : Obeys [(Lock.commit n, true), (Lock.loop, true)] (relinquish n others tps) := by
      rw [relinquish, obeys_append, obeys_append, after_append, hr.2, hf.2]
      exact ⟨⟨hr.1, hf.1⟩, hu.1⟩
    have h2 : ((after [(Lock.commit n, true), (Lock.loop, true)] (relinquish n others tps)).erase (Lock.commit n, true)).erase (Lock.loop, true) = [] := by
      rw [relinquish, after_append, after_append, hr.2, hf.2]
      exact hx
    have h3 := hw [(Lock.loop, true)]
    have h4 : Rule [(Lock.commit n, true), (Lock.loop, true)] (.parts n) .read := by simp [Rule]
    have hin : Obeys [(Lock.commit n, true), (Lock.loop, true)] (within (.produce n) (.acc (.parts n) .read :: ownersProg true) ++ [.acc (.parts n) .read] ++ relinquish n others tps) ∧
        after [(Lock.commit n, true), (Lock.loop, true)] (within (.produce n) (.acc (.parts n) .read :: ownersProg true) ++ [.acc (.parts n) .read] ++ relinquish n others tps) =
          after [(Lock.commit n, true), (Lock.loop, true)] (relinquish n others tps) := by
      simp only [obeys_append, after_append, h3]
      exact ⟨⟨⟨trivial, h4, trivial⟩, h1⟩, rfl⟩
    have hout : ∀ is, Obeys [(Lock.commit n, true), (Lock.loop, true)] is → ((after [(Lock.commit n, true), (Lock.loop, true)] is).erase (Lock.commit n, true)).erase (Lock.loop, true) = [] →
        Obeys [] (within .loop (within (.commit n) is)) ∧ after [] (within .loop (within (.commit n) is)) = [] := by
      intro is g1 g2
      simp only [within, List.cons_append, List.append_assoc, Obeys, after, obeys_append, after_append]
      simp only [g1, g2, and_self]
    have := hout _ hin.1 (by rw [hin.2]; exact h2)
    simpa only [prog, if_true] using this

/-- Each function follows the rules, and releases all locks. -/
theorem prog_ok (f : Fn) : Obeys [] (prog f) ∧ after [] (prog f) = [] := by
  cases f with
  | commit n others tps ok => exact commit_ok n others tps ok
  | assign bs =>
    refine within_ok (within_ok (append_ok (flatten_ok _ _ ?_) (within_ok (by simp [Obeys, after, Rule]))))
    intro l hl
    obtain ⟨b, _, rfl⟩ := List.mem_map.1 hl
    exact assignOne_ok _ (by simp) (by simp) b
  | revoke ks =>
    refine within_ok (flatten_ok _ _ ?_)
    intro l hl
    obtain ⟨b, _, rfl⟩ := List.mem_map.1 hl
    exact revokeOne_ok _ (by simp) b
  | prepare known =>
    refine within_ok ?_
    cases known
    · have h1 := stores_ok [(Lock.prepping, true)]
      have h2 : Obeys [(Lock.prepping, true)] (within .consumer prepProg) ∧ after [(Lock.prepping, true)] (within .consumer prepProg) = [(Lock.prepping, true)] := within_ok (prep_ok _)
      simp [Obeys, after, Rule, obeys_append, after_append, h1, h2]
    · simp [Obeys, after, Rule]
  | prepared =>
    exact append_ok (append_ok (append_ok (waiter_ok []) (by simp [Obeys, after, Rule])) (within_ok (by simp [Obeys, after, Rule]))) (by simp [Obeys, after, Rule])
  | forget known =>
    refine within_ok ?_
    cases known
    · simp [Obeys, after, Rule]
    · have h2 : Obeys [(Lock.prepping, true)] (within .consumer cancelProg) ∧ after [(Lock.prepping, true)] (within .consumer cancelProg) = [(Lock.prepping, true)] := within_ok (cancel_ok _)
      simp [Obeys, after, Rule, obeys_append, after_append, h2]
  | syncStore => exact waiter_ok []
  | populate ends changes =>
    have h1 := waiter_ok []
    have h2 := cancel_ok []
    have h3 := replicate_ok [] (.acc .counts .atomic) changes (by simp [Obeys, after, Rule])
    cases ends <;> simp [prog, obeys_append, after_append, h1, h2, h3, Obeys, after, Rule]
  | produce n => exact within_ok (by have := owners_ok [(Lock.produce n, true)] false; simp [Obeys, after, Rule, this])
  | conditionallyUpdate => exact owners_ok [] true
  | schedule waits created =>
    refine append_ok (append_ok (flatten_ok _ _ ?_) (within_ok (by simp [Obeys, after, Rule]))) ?_
    · simp only [List.mem_replicate]; rintro l ⟨_, rfl⟩; exact within_ok (by simp [Obeys, after, Rule])
    · cases created
      · simp [Obeys, after]
      · exact enqueue_ok []
  | work again =>
    have h2 := enqueue_ok []
    cases again <;> simp [prog, h2, Obeys, after, Rule, within]
  | setMaxKeys more => cases more <;> simp [prog, Obeys, after, Rule, within]
  | consume sends => cases sends <;> simp [prog, Obeys, after, Rule]
  | _ => simp [prog, within, Obeys, after, Rule]

/-! ### The invariant -/

/-- Nobody else holds a lock that is held exclusively; everything that is still to be done follows the rules. -/
structure Inv (ts : List Thread) : Prop where
  excl : ∀ (i j : Nat) (t u : Thread), ts[i]? = some t → ts[j]? = some u → i ≠ j → ∀ l b, (l, true) ∈ t.held → (l, b) ∉ u.held
  obeys : ∀ t ∈ ts, Obeys t.held t.rest
  released : ∀ t ∈ ts, after t.held t.rest = []

theorem inv_start (ts : List Thread) (f : Fn) (h : Inv ts) : Inv (ts ++ [⟨[], prog f⟩]) := by
  refine ⟨?_, ?_, ?_⟩
  · intro i j t u hi hj hij l b hl
    rw [List.getElem?_append] at hi hj
    split at hi
    · split at hj
      · exact h.excl i j t u hi hj hij l b hl
      · have : u = ⟨[], prog f⟩ := by
          rw [List.getElem?_singleton] at hj; split at hj <;> simp_all
        simp [this]
    · have : t = ⟨[], prog f⟩ := by
        rw [List.getElem?_singleton] at hi; split at hi <;> simp_all
      simp [this] at hl
  · intro t ht
    rcases List.mem_append.1 ht with ht | ht
    · exact h.obeys t ht
    · rw [List.mem_singleton.1 ht]; exact (prog_ok f).1
  · intro t ht
    rcases List.mem_append.1 ht with ht | ht
    · exact h.released t ht
    · rw [List.mem_singleton.1 ht]; exact (prog_ok f).2

theorem next_held {ts : List Thread} {t t' : Thread} (h : next ts t = some t') (l : Lock) (b : Bool) (hl : (l, b) ∈ t'.held) :
    (l, b) ∈ t.held ∨ (∀ u ∈ ts, (l, true) ∉ u.held ∧ (b = true → (l, false) ∉ u.held)) := by
  unfold next at h
  split at h
  · simp at h
  · rename_i l' is _
    split at h
    · rename_i hf
      simp only [Option.some.injEq] at h; subst h
      rcases List.mem_cons.1 hl with hl | hl
      · simp only [Prod.mk.injEq] at hl
        obtain ⟨rfl, rfl⟩ := hl
        exact .inr fun u hu => ⟨(hf u hu).1, fun _ => (hf u hu).2⟩
      · exact .inl hl
    · simp at h
  · rename_i l' is _
    split at h
    · rename_i hf
      simp only [Option.some.injEq] at h; subst h
      rcases List.mem_cons.1 hl with hl | hl
      · simp only [Prod.mk.injEq] at hl
        obtain ⟨rfl, rfl⟩ := hl
        exact .inr fun u hu => ⟨hf u hu, fun h => by simp at h⟩
      · exact .inl hl
    · simp at h
  · simp only [Option.some.injEq] at h; subst h; exact .inl (List.mem_of_mem_erase hl)
  · simp only [Option.some.injEq] at h; subst h; exact .inl (List.mem_of_mem_erase hl)
  · simp only [Option.some.injEq] at h; subst h; exact .inl hl

theorem next_obeys {ts : List Thread} {t t' : Thread} (h : next ts t = some t') (ho : Obeys t.held t.rest) : Obeys t'.held t'.rest := by
  unfold next at h
  split at h <;> rename_i hr <;> rw [hr] at ho
  · simp at h
  · split at h
    · simp only [Option.some.injEq] at h; subst h; exact ho
    · simp at h
  · split at h
    · simp only [Option.some.injEq] at h; subst h; exact ho
    · simp at h
  · simp only [Option.some.injEq] at h; subst h; exact ho
  · simp only [Option.some.injEq] at h; subst h; exact ho
  · simp only [Option.some.injEq] at h; subst h; exact ho.2

theorem next_after {ts : List Thread} {t t' : Thread} (h : next ts t = some t') (ho : after t.held t.rest = []) : after t'.held t'.rest = [] := by
  unfold next at h
  split at h <;> rename_i hr <;> rw [hr] at ho
  · simp at h
  · split at h
    · simp only [Option.some.injEq] at h; subst h; exact ho
    · simp at h
  · split at h
    · simp only [Option.some.injEq] at h; subst h; exact ho
    · simp at h
  · simp only [Option.some.injEq] at h; subst h; exact ho
  · simp only [Option.some.injEq] at h; subst h; exact ho
  · simp only [Option.some.injEq] at h; subst h; exact ho

theorem inv_step {ts ts' : List Thread} {a : Act} (h : Inv ts) (hs : step ts a = some ts') : Inv ts' := by
  cases a with
  | start f => simp only [step, Option.some.injEq] at hs; subst hs; exact inv_start ts f h
  | go k =>
    simp only [step] at hs
    split at hs
    · rename_i t hk
      obtain ⟨t', hn, rfl⟩ := Option.map_eq_some_iff.1 hs
      have hlt : k < ts.length := (List.getElem?_eq_some_iff.1 hk).1
      have hmem : t ∈ ts := List.mem_of_getElem? hk
      refine ⟨?_, ?_, ?_⟩
      · intro i j x y hi hj hij l b hl hb
        rw [List.getElem?_set] at hi hj
        split at hi
        · rename_i e; subst e
          rw [if_neg hij] at hj
          simp only [Option.some.injEq] at hi; subst hi
          have hy : y ∈ ts := List.mem_of_getElem? hj
          rcases next_held hn l true hl with h1 | h1
          · exact h.excl k j t y hk hj hij l b h1 hb
          · cases b
            · exact (h1 y hy).2 rfl hb
            · exact (h1 y hy).1 hb
        · split at hj
          · rename_i e; subst e
            simp only [Option.some.injEq] at hj; subst hj
            rcases next_held hn l b hb with h1 | h1
            · exact h.excl i k x t hi hk hij l b hl h1
            · exact (h1 x (List.mem_of_getElem? hi)).1 hl
          · exact h.excl i j x y hi hj hij l b hl hb
      · intro x hx
        rcases List.mem_or_eq_of_mem_set hx with hx | rfl
        · exact h.obeys x hx
        · exact next_obeys hn (h.obeys t hmem)
      · intro x hx
        rcases List.mem_or_eq_of_mem_set hx with hx | rfl
        · exact h.released x hx
        · exact next_after hn (h.released t hmem)
    · simp at hs

theorem inv_run {ts ts' : List Thread} (as : List Act) (h : Inv ts) (hs : run ts as = some ts') : Inv ts' := by
  induction as generalizing ts with
  | nil => simp only [run, Option.some.injEq] at hs; exact hs ▸ h
  | cons a as ih =>
    simp only [run] at hs
    obtain ⟨m, h1, h2⟩ := Option.bind_eq_some_iff.1 hs
    exact ih (inv_step h h1) h2

theorem inv_reach {ts : List Thread} (h : Reach ts) : Inv ts := by
  obtain ⟨as, h⟩ := h
  exact inv_run as ⟨by simp, by simp, by simp⟩ h

/-- Two accesses that follow the rules and clash hold a lock that excludes the other, for all fields with a rule. -/
theorem rules_exclude (f : Field) (hf : f ≠ .buffer ∧ f ≠ .counts ∧ f ≠ .channel ∧ f ≠ .highestOffset ∧ ∀ n, f ≠ .produceCnt n) (a b : Acc) (hc : clash a b) (h1 h2 : List (Lock × Bool))
    (r1 : Rule h1 f a) (r2 : Rule h2 f b) : ∃ l x y, (l, x) ∈ h1 ∧ (l, y) ∈ h2 ∧ (x = true ∨ y = true) := by
  obtain ⟨f1, f2, f3, f4, f5⟩ := hf
  cases f with
  | buffer => exact absurd rfl f1
  | counts => exact absurd rfl f2
  | channel => exact absurd rfl f3
  | highestOffset => exact absurd rfl f4
  | produceCnt n => exact absurd rfl (f5 n)
  | state => simp only [Rule] at r1 r2; exact absurd ⟨r1, r2⟩ hc.2
  | depth => simp only [Rule] at r1 r2; exact absurd ⟨r1, r2⟩ hc.2
  | ready => simp only [Rule] at r1 r2; exact absurd ⟨r1, r2⟩ hc.2
  | maxKeys =>
    cases a <;> cases b <;> simp only [Rule] at r1 r2
    · exact absurd ⟨rfl, rfl⟩ hc.1
    · rcases r1 with r1 | r1
      · exact ⟨_, _, _, r1, r2.1, .inl rfl⟩
      · exact ⟨_, _, _, r1, r2.2, .inl rfl⟩
    · rcases r1 with r1 | r1
      · exact ⟨_, _, _, r1, r2.1, .inl rfl⟩
      · exact ⟨_, _, _, r1, r2.2, .inl rfl⟩
    · rcases r2 with r2 | r2
      · exact ⟨_, _, _, r1.1, r2, .inl rfl⟩
      · exact ⟨_, _, _, r1.2, r2, .inl rfl⟩
    · exact ⟨_, _, _, r1.1, r2.1, .inl rfl⟩
    · exact ⟨_, _, _, r1.1, r2.1, .inl rfl⟩
    · rcases r2 with r2 | r2
      · exact ⟨_, _, _, r1.1, r2, .inl rfl⟩
      · exact ⟨_, _, _, r1.2, r2, .inl rfl⟩
    · exact ⟨_, _, _, r1.1, r2.1, .inl rfl⟩
    · exact ⟨_, _, _, r1.1, r2.1, .inl rfl⟩
  | parts n =>
    have key : ∀ (p q : List (Lock × Bool)), ((Lock.commit n, true) ∈ p ∧ ((Lock.part n, true) ∈ p ∨ (Lock.loop, true) ∈ p)) →
        ((Lock.commit n, true) ∈ q ∨ (Lock.loop, true) ∈ q ∧ (Lock.part n, false) ∈ q) → ∃ l x y, (l, x) ∈ p ∧ (l, y) ∈ q ∧ (x = true ∨ y = true) := by
      rintro p q ⟨hp, hp'⟩ (hq | ⟨hq, hq'⟩)
      · exact ⟨_, _, _, hp, hq, .inl rfl⟩
      · rcases hp' with hp' | hp'
        · exact ⟨_, _, _, hp', hq', .inl rfl⟩
        · exact ⟨_, _, _, hp', hq, .inl rfl⟩
    have swap : (∃ l x y, (l, x) ∈ h2 ∧ (l, y) ∈ h1 ∧ (x = true ∨ y = true)) → ∃ l x y, (l, x) ∈ h1 ∧ (l, y) ∈ h2 ∧ (x = true ∨ y = true) := by
      rintro ⟨l, x, y, p, q, r⟩; exact ⟨l, y, x, q, p, r.symm⟩
    cases a <;> cases b <;> simp only [Rule] at r1 r2
    · exact absurd ⟨rfl, rfl⟩ hc.1
    · exact swap (key _ _ r2 r1)
    · exact swap (key _ _ r2 r1)
    · exact key _ _ r1 r2
    · exact key _ _ r1 (.inl r2.1)
    · exact key _ _ r1 (.inl r2.1)
    · exact key _ _ r1 r2
    · exact key _ _ r1 (.inl r2.1)
    · exact key _ _ r1 (.inl r2.1)
  | _ => simp only [Rule] at r1 r2; exact ⟨_, _, _, r1, r2, .inl rfl⟩

end Verif.Races
