import Verif.Serial.Steps
/-
Who holds what, and that everything is handed over in order.
-/
namespace Verif.Serial
open Verif.Eos (upd)

/-- Who holds a worker. -/
def wHold (s : St) (w : Nat) : Holder :=
  match s.wst w with
  | .free => .lck .mux
  | .give g => .gor g
  | .chan n => .msg (.wk n)
  | .held g => .gor (.pool g)

/-- Who holds what belongs to a key. -/
def kHold (s : St) (k : Nat) : Holder :=
  match s.map k with
  | none => .lck .mux
  | some w => wHold s w

/-- Who holds a job. -/
def jHold (s : St) (j : Nat) : Holder :=
  match s.jst j with
  | .new => .gor (.work (s.own j))
  | .head w => .lck (.head w)
  | .chan _ => .msg (.item j)
  | .wait _ => .gor (.work (s.own j))
  | .proc w => wHold s w
  | .sent => .msg (.fin j)
  | .fin => .gor (.work (s.own j))

/-- Everything is in order and known to its holder. -/
structure MI (s : St) : Prop where
  lo : Fine s.tr (.lck .mux) .shared
  hd : ∀ w, Fine s.tr (.lck (.head w)) (.head w)
  ky : ∀ k, Fine s.tr (kHold s k) (.key k)
  jb : ∀ j, j < s.jobs → Fine s.tr (jHold s j) (.job j)
  fr : ∀ o ∈ s.tr, ∀ j, o.at (.job j) = true → j < s.jobs

theorem mi_init : MI St.init := by
  constructor <;> simp [St.init, Fine]

theorem Ok.none {h' : Holder} {L : Loc} : ∀ (l : List Op) (S : List Holder), (∀ o ∈ l, o.at L = false) → Ok h' L S l
  | [], _, _ => trivial
  | o :: l, _, h => ⟨fun ha => (by have := h o (by simp); rw [ha] at this; cases this), Ok.none l _ fun o' ho => h o' (List.mem_cons_of_mem _ ho)⟩

theorem MI.extend {s s' : St} (M : MI s) (l : List Op) (g : Gor) (htr : s'.tr = s.tr ++ l) (hit : s'.jobs = s.jobs) (hg : ∀ o ∈ l, o.gor = g)
    (hL : Ok (.lck .mux) .shared [.lck .mux] l)
    (hH : ∀ w, Ok (.lck (.head w)) (.head w) [.lck (.head w)] l)
    (hK : ∀ k, kHold s' k ∈ after [kHold s k] l ∧ Ok (kHold s' k) (.key k) [kHold s k] l)
    (hJ : ∀ j, j < s.jobs → jHold s' j ∈ after [jHold s j] l ∧ Ok (jHold s' j) (.job j) [jHold s j] l)
    (hi : ∀ o ∈ l, ∀ j, o.at (.job j) = true → j < s.jobs) : MI s' := by
  obtain ⟨lo, hd, ky, jb, fr⟩ := M
  refine ⟨?_, fun w => ?_, fun k => ?_, fun j hj => ?_, fun o ho j ha => ?_⟩
  · rw [htr]; exact lo.extend hg hL (after_sub l _ (by simp))
  · rw [htr]; exact (hd w).extend hg (hH w) (after_sub l _ (by simp))
  · rw [htr]; exact (ky k).extend hg (hK k).2 (hK k).1
  · rw [hit] at hj; rw [htr]; exact (jb j hj).extend hg (hJ j hj).2 (hJ j hj).1
  · rw [htr] at ho
    rw [hit]
    rcases List.mem_append.mp ho with ho | ho
    · exact fr o ho j ha
    · exact hi o ho j ha

/-- What `tryEnqueue` does, case by case. -/
theorem add_cases (s : St) (g : Gor) (j w : Nat) (full : Bool) :
    (enqueueOps s g j w full = [] ∧ (enqueue s j w full).jst = upd s.jst j (.head w)) ∨
    (∃ j', j' ∈ s.q w ∧ enqueueOps s g j w full = [.rcv g (.item j')] ∧ (enqueue s j w full).jst = upd (upd s.jst j' (.head w)) j (.wait w)) ∨
    (∃ j', j' ∈ s.q w ∧ enqueueOps s g j w full = [.rcv g (.item j'), .snd g (.item j)] ∧ (enqueue s j w full).jst = upd (upd s.jst j' (.head w)) j (.chan w)) ∨
    (enqueueOps s g j w full = [] ∧ (enqueue s j w full).jst = upd s.jst j (.wait w)) ∨
    (enqueueOps s g j w full = [.snd g (.item j)] ∧ (enqueue s j w full).jst = upd s.jst j (.chan w)) := by
  by_cases hh : s.head w = none
  · cases hq : s.q w with
    | nil => exact .inl ⟨by simp [enqueueOps, fillOps, hh, hq], by simp [enqueue, fill, hh, hq, upd_same]⟩
    | cons j' q =>
      cases full with
      | true => exact .inr (.inl ⟨j', by simp, by simp [enqueueOps, fillOps, hh, hq], by simp [enqueue, fill, hh, hq, upd_same]⟩)
      | false => exact .inr (.inr (.inl ⟨j', by simp, by simp [enqueueOps, fillOps, hh, hq], by simp [enqueue, fill, hh, hq, upd_same]⟩))
  · cases full with
    | true => exact .inr (.inr (.inr (.inl ⟨by simp [enqueueOps, hh], by simp [enqueue, hh]⟩)))
    | false => exact .inr (.inr (.inr (.inr ⟨by simp [enqueueOps, hh], by simp [enqueue, hh]⟩)))

theorem enqueue_rest (s : St) (j w : Nat) (full : Bool) : (enqueue s j w full).jobs = s.jobs ∧ (enqueue s j w full).own = s.own := by
  obtain ⟨s1, X, hd, q, h1, h2, _⟩ := enqueue_cases s j w full
  rw [h2]
  rcases h1 with rfl | ⟨_, rfl⟩
  · exact ⟨rfl, rfl⟩
  · exact ⟨(fill_rest s w).2.1, (fill_rest s w).2.2.2.1⟩

theorem jHold_eq {s s' : St} {j : Nat} (h1 : s'.jst j = s.jst j) (h2 : s'.own = s.own) (h3 : ∀ w, s.jst j = .proc w → wHold s' w = wHold s w) : jHold s' j = jHold s j := by
  unfold jHold
  rw [h1, h2]
  cases hj : s.jst j with
  | proc w => exact h3 w hj
  | _ => rfl

/-- A job goes into a queue. -/
theorem MI.add {s s' : St} (M : MI s) (I : SI s) {j w : Nat} (hl : j < s.jobs) (hn : s.jst j = .new) (hw : s.map (s.jk j) = some w ∨ (s.map (s.jk j) = none ∧ s.wst w = .free)) (mid : List Op) (X : JSt) (F : Nat → JSt)
    (htr : s'.tr = s.tr ++ ([.lock (.work (s.own j)) .mux, .acc (.work (s.own j)) .shared true, .lock (.work (s.own j)) (.head w), .acc (.work (s.own j)) (.head w) true] ++ mid ++ [.unlock (.work (s.own j)) (.head w), .unlock (.work (s.own j)) .mux]))
    (hjobs : s'.jobs = s.jobs) (hown : s'.own = s.own) (hmap : s'.map = upd s.map (s.jk j) (some w)) (hwst : s'.wst = if (s.map (s.jk j)).isNone then upd s.wst w (.give (.work (s.own j))) else s.wst) (hjst : s'.jst = upd F j X)
    (hmid : (mid = [] ∧ F = s.jst ∧ (X = .head w ∨ X = .wait w)) ∨ (mid = [.snd (.work (s.own j)) (.item j)] ∧ F = s.jst ∧ X = .chan w) ∨
      (∃ j', j' ∈ s.q w ∧ F = upd s.jst j' (.head w) ∧ ((mid = [.rcv (.work (s.own j)) (.item j')] ∧ X = .wait w) ∨ (mid = [.rcv (.work (s.own j)) (.item j'), .snd (.work (s.own j)) (.item j)] ∧ X = .chan w)))) : MI s' := by
  have wsame : ∀ w', s.wst w' ≠ .free → wHold s' w' = wHold s w' := by
    intro w' h1
    have : s'.wst w' = s.wst w' := by
      rw [hwst]
      split
      · rename_i h2
        refine upd_ne _ _ fun h3 => ?_
        subst h3
        rcases hw with h4 | ⟨_, h4⟩
        · rw [h4] at h2; cases h2
        · exact h1 h4
      · rfl
    simp only [wHold, this]
  have jsame : ∀ i, F i = s.jst i → i ≠ j → jHold s' i = jHold s i := by
    intro i h1 h2
    refine jHold_eq (by rw [hjst, upd_ne _ _ h2]; exact h1) hown fun w' hp => wsame w' fun h3 => ?_
    have h4 := I.r w' (by rw [h3]; simp)
    have h5 := I.p w' i hp
    rw [h4] at h5
    rcases h5 with h | h <;> cases h
  have hj : jHold s j = .gor (.work (s.own j)) := by simp [jHold, hn]
  refine M.extend _ (.work (s.own j)) htr hjobs ?_ ?_ ?_ ?_ ?_ ?_
  · rcases hmid with ⟨rfl, _⟩ | ⟨rfl, _⟩ | ⟨j', _, _, ⟨rfl, _⟩ | ⟨rfl, _⟩⟩ <;> simp [Op.gor]
  · rcases hmid with ⟨rfl, _⟩ | ⟨rfl, _⟩ | ⟨j', _, _, ⟨rfl, _⟩ | ⟨rfl, _⟩⟩ <;> simp [Ok, Op.at, takes, gives, after, Op.gor]
  · intro w'
    by_cases hww : w = w'
    · subst hww
      rcases hmid with ⟨rfl, _⟩ | ⟨rfl, _⟩ | ⟨j', _, _, ⟨rfl, _⟩ | ⟨rfl, _⟩⟩ <;> simp [Ok, Op.at, takes, gives, after, Op.gor]
    · rcases hmid with ⟨rfl, _⟩ | ⟨rfl, _⟩ | ⟨j', _, _, ⟨rfl, _⟩ | ⟨rfl, _⟩⟩ <;> exact Ok.none _ _ (by simp [Op.at, hww])
  · intro k
    refine ⟨?_, by rcases hmid with ⟨rfl, _⟩ | ⟨rfl, _⟩ | ⟨j', _, _, ⟨rfl, _⟩ | ⟨rfl, _⟩⟩ <;> exact Ok.none _ _ (by simp [Op.at])⟩
    by_cases hk : k = s.jk j
    · subst hk
      simp only [kHold, hmap, upd_same]
      rcases hw with h | ⟨h, h2⟩
      · rw [h]; simp only []; rw [wsame w (I.a1 _ _ h).2]; exact after_sub _ _ (by simp)
      · have : wHold s' w = .gor (.work (s.own j)) := by simp [wHold, hwst, h, upd_same]
        rw [h, this]
        simp only [List.cons_append, List.nil_append, after]
        exact after_sub _ _ (by simp [takes, gives, Op.gor])
    · simp only [kHold, hmap, upd_ne _ _ hk]
      cases hm : s.map k with
      | none => exact after_sub _ _ (by simp)
      | some w' => simp only []; rw [wsame w' (I.a1 _ _ hm).2]; exact after_sub _ _ (by simp)
  · intro i hi
    refine ⟨?_, by rcases hmid with ⟨rfl, _⟩ | ⟨rfl, _⟩ | ⟨j', _, _, ⟨rfl, _⟩ | ⟨rfl, _⟩⟩ <;> exact Ok.none _ _ (by simp [Op.at])⟩
    by_cases hij : i = j
    · subst hij
      rw [hj]
      have : jHold s' i = match X with | .head w => .lck (.head w) | .chan _ => .msg (.item i) | .wait _ => .gor (.work (s.own i)) | _ => jHold s' i := by
        cases X <;> simp [jHold, hjst, upd_same, hown]
      rw [this]
      rcases hmid with ⟨rfl, _, rfl | rfl⟩ | ⟨rfl, _, rfl⟩ | ⟨j', _, _, ⟨rfl, rfl⟩ | ⟨rfl, rfl⟩⟩ <;> simp [takes, gives, after, Op.gor]
    · rcases hmid with ⟨_, rfl, _⟩ | ⟨_, rfl, _⟩ | ⟨j', hq, rfl, hm⟩
      · rw [jsame i rfl hij]; exact after_sub _ _ (by simp)
      · rw [jsame i rfl hij]; exact after_sub _ _ (by simp)
      · by_cases hi' : i = j'
        · subst hi'
          have h1 : jHold s i = .msg (.item i) := by simp [jHold, (I.e w i hq).1]
          have h2 : jHold s' i = .lck (.head w) := by simp [jHold, hjst, upd_ne _ _ hij, upd_same]
          rw [h1, h2]
          rcases hm with ⟨rfl, _⟩ | ⟨rfl, _⟩ <;> simp [takes, gives, after, Op.gor]
        · rw [jsame i (upd_ne _ _ hi') hij]; exact after_sub _ _ (by simp)
  · rcases hmid with ⟨rfl, _⟩ | ⟨rfl, _⟩ | ⟨j', _, _, ⟨rfl, _⟩ | ⟨rfl, _⟩⟩ <;> simp [Op.at]

/-- A worker changes hands, nothing else does. -/
theorem MI.move {s s' : St} (M : MI s) (I : SI s) {w : Nat} (g : Gor) (l : List Op) (htr : s'.tr = s.tr ++ l) (hg : ∀ o ∈ l, o.gor = g) (hna : ∀ o ∈ l, ∀ L, o.at L = false) (hjobs : s'.jobs = s.jobs) (hown : s'.own = s.own) (hmap : s'.map = s.map) (hjst : s'.jst = s.jst)
    (hw : ∀ w', w' ≠ w → s'.wst w' = s.wst w') (hm : wHold s' w ∈ after [wHold s w] l) (hp : s.ph w = .took) : MI s' := by
  have wsame : ∀ w', w' ≠ w → wHold s' w' = wHold s w' := fun w' h => by simp only [wHold, hw w' h]
  refine M.extend l g htr hjobs hg (Ok.none _ _ fun o ho => hna o ho _) (fun _ => Ok.none _ _ fun o ho => hna o ho _) (fun k => ⟨?_, Ok.none _ _ fun o ho => hna o ho _⟩) (fun j hj => ⟨?_, Ok.none _ _ fun o ho => hna o ho _⟩) (fun o ho j ha => ?_)
  · simp only [kHold, hmap]
    cases s.map k with
    | none => exact after_sub _ _ (by simp)
    | some w' =>
      simp only []
      by_cases hww : w' = w
      · subst hww; exact hm
      · rw [wsame w' hww]; exact after_sub _ _ (by simp)
  · rw [jHold_eq (s := s) (by rw [hjst]) hown fun w' h1 => wsame w' fun h2 => ?_]
    · exact after_sub _ _ (by simp)
    · subst h2
      have := I.p w' j h1
      rw [hp] at this
      rcases this with h | h <;> cases h
  · rw [hna o ho _] at ha; cases ha

/-- A job changes hands, nothing else does. -/
theorem MI.pass {s s' : St} (M : MI s) {j : Nat} (g : Gor) (l : List Op) (htr : s'.tr = s.tr ++ l) (hg : ∀ o ∈ l, o.gor = g) (hna : ∀ o ∈ l, ∀ L, o.at L = false) (hjobs : s'.jobs = s.jobs) (hown : s'.own = s.own) (hmap : s'.map = s.map) (hwst : s'.wst = s.wst)
    (hj : ∀ i, i ≠ j → s'.jst i = s.jst i) (hm : jHold s' j ∈ after [jHold s j] l) : MI s' := by
  have wsame : ∀ w', wHold s' w' = wHold s w' := fun w' => by simp only [wHold, hwst]
  refine M.extend l g htr hjobs hg (Ok.none _ _ fun o ho => hna o ho _) (fun _ => Ok.none _ _ fun o ho => hna o ho _) (fun k => ⟨?_, Ok.none _ _ fun o ho => hna o ho _⟩) (fun i hi => ⟨?_, Ok.none _ _ fun o ho => hna o ho _⟩) (fun o ho j ha => ?_)
  · have : kHold s' k = kHold s k := by
      simp only [kHold, hmap]
      cases s.map k with
      | none => rfl
      | some w => exact wsame w
    rw [this]; exact after_sub _ _ (by simp)
  · by_cases hij : i = j
    · subst hij; exact hm
    · rw [jHold_eq (s := s) (hj i hij) hown fun w' _ => wsame w']; exact after_sub _ _ (by simp)
  · rw [hna o ho _] at ha; cases ha

theorem kHold_same {s s' : St} (hmap : s'.map = s.map) (hwst : s'.wst = s.wst) (k : Nat) : kHold s' k = kHold s k := by
  simp only [kHold, wHold, hmap, hwst]

theorem Ok.same {h h1 h2 : Holder} {L : Loc} {l : List Op} (e1 : h1 = h) (e2 : h2 = h) (h0 : Ok h L [h] l) : Ok h1 L [h2] l := by
  subst e1; subst e2; exact h0

theorem kStay {s s' : St} {k : Nat} {l : List Op} (hmap : s'.map = s.map) (hwst : s'.wst = s.wst) : kHold s' k ∈ after [kHold s k] l := by
  rw [kHold_same hmap hwst]; exact after_sub _ _ (by simp)

theorem jStay {s s' : St} {j : Nat} {l : List Op} (h1 : s'.jst j = s.jst j) (h2 : s'.own = s.own) (h3 : s'.wst = s.wst) : jHold s' j ∈ after [jHold s j] l := by
  rw [jHold_eq h1 h2 fun w _ => by simp only [wHold, h3]]; exact after_sub _ _ (by simp)

theorem mi_step {s s' : St} {x : Act} (M : MI s) (I : SI s) (hstep : step s x = some s') : MI s' := by
  cases x with
  | make p k =>
    simp only [step, Option.some.injEq] at hstep
    subst hstep
    have ism : upd s.jst s.jobs .new = s.jst := upd_eta _ _ (I.jn _ (Nat.le_refl _))
    rw [ism]
    obtain ⟨lo, hd, ky, jb, fr⟩ := M
    refine ⟨lo.skip (by simp [Op.at]) (after_sub _ _ (by simp)), fun w => (hd w).skip (by simp [Op.at]) (after_sub _ _ (by simp)), fun k => (ky k).skip (by simp [Op.at]) (after_sub _ _ (by simp [kHold, wHold])), fun j hj => ?_, fun o ho j ha => ?_⟩
    · simp only [] at hj
      by_cases hjj : j = s.jobs
      · subst hjj
        refine Fine.fresh (g := .work p) (fun o ho => ?_) (by simp [Op.gor]) fun _ _ _ _ _ => after_sub _ _ ?_
        · cases h : o.at (.job s.jobs) with
          | false => rfl
          | true => exact absurd (fr o ho _ h) (by omega)
        · simp [jHold, I.jn _ (Nat.le_refl _), upd_same]
      · have : jHold { s with tr := s.tr ++ [.acc (.work p) (.job s.jobs) true], jobs := s.jobs + 1, jk := upd s.jk s.jobs k, own := upd s.own s.jobs p } j = jHold s j := by
          simp only [jHold, wHold, upd_ne _ _ hjj]
        rw [this]
        exact (jb j (by omega)).skip (by simp [Op.at]; omega) (after_sub _ _ (by simp))
    · simp only []
      rcases List.mem_append.mp ho with ho | ho
      · have := fr o ho j ha; omega
      · rw [List.mem_singleton.mp ho] at ha; simp [Op.at] at ha; omega
  | add j w0 full =>
    simp only [step] at hstep
    split at hstep
    · rename_i hc
      simp only [Option.map_eq_some_iff] at hstep
      obtain ⟨w, hw, rfl⟩ := hstep
      have hw := grab_some hw
      obtain ⟨r1, r2⟩ := enqueue_rest s j w full
      rcases add_cases s (.work (s.own j)) j w full with ⟨h1, h2⟩ | ⟨j', hq, h1, h2⟩ | ⟨j', hq, h1, h2⟩ | ⟨h1, h2⟩ | ⟨h1, h2⟩
      · exact M.add I hc.1 hc.2 hw [] _ _ (by rw [h1]) r1 r2 rfl rfl h2 (.inl ⟨rfl, rfl, .inl rfl⟩)
      · exact M.add I hc.1 hc.2 hw _ _ _ (by rw [h1]) r1 r2 rfl rfl h2 (.inr (.inr ⟨j', hq, rfl, .inl ⟨rfl, rfl⟩⟩))
      · exact M.add I hc.1 hc.2 hw _ _ _ (by rw [h1]) r1 r2 rfl rfl h2 (.inr (.inr ⟨j', hq, rfl, .inr ⟨rfl, rfl⟩⟩))
      · exact M.add I hc.1 hc.2 hw [] _ _ (by rw [h1]) r1 r2 rfl rfl h2 (.inl ⟨rfl, rfl, .inr rfl⟩)
      · exact M.add I hc.1 hc.2 hw _ _ _ (by rw [h1]) r1 r2 rfl rfl h2 (.inr (.inl ⟨rfl, rfl, rfl⟩))
    · cases hstep
  | block j =>
    simp only [step] at hstep
    split at hstep
    · rename_i w hj
      split at hstep
      · simp only [Option.some.injEq] at hstep
        subst hstep
        refine M.pass (j := j) (.work (s.own j)) _ rfl (by simp [Op.gor]) (by simp [Op.at]) rfl rfl rfl rfl (fun i hi => upd_ne _ _ hi) ?_
        simp [jHold, hj, upd_same, after, takes, gives, Op.gor]
      · cases hstep
    · cases hstep
  | enq w =>
    simp only [step] at hstep
    split at hstep
    · rename_i g hg
      simp only [Option.some.injEq] at hstep
      subst hstep
      refine M.move I (w := w) g _ rfl (by simp [Op.gor]) (by simp [Op.at]) rfl rfl rfl rfl (fun i hi => upd_ne _ _ hi) ?_ (I.r w (by rw [hg]; simp))
      simp [wHold, hg, upd_same, after, takes, gives, Op.gor]
    · cases hstep
  | take g w =>
    simp only [step] at hstep
    split at hstep
    · rename_i n hn
      simp only [Option.some.injEq] at hstep
      subst hstep
      refine M.move I (w := w) (.pool g) _ rfl (by simp [Op.gor]) (by simp [Op.at]) rfl rfl rfl rfl (fun i hi => upd_ne _ _ hi) ?_ (I.r w (by rw [hn]; simp))
      simp [wHold, hn, upd_same, after, takes, gives, Op.gor]
    · cases hstep
  | peek w =>
    simp only [step] at hstep
    split at hstep
    · rename_i g hg hp
      have hHd : ∀ w', Ok (.lck (.head w')) (.head w') [.lck (.head w')] [.lock (.pool g) (.head w), .acc (.pool g) (.head w) false, .unlock (.pool g) (.head w)] := by
        intro w'
        by_cases hww : w = w'
        · subst hww; simp [Ok, Op.at, takes, gives, after, Op.gor]
        · exact Ok.none _ _ (by simp [Op.at, hww])
      split at hstep
      · rename_i j hj
        simp only [Option.some.injEq] at hstep
        subst hstep
        have hjs : s.jst j = .head w := by
          rcases (I.d w j hj).2 with h1 | h1
          · exact h1
          · rw [hp] at h1; cases h1.2
        refine M.extend _ (.pool g) rfl rfl (by simp [Op.gor]) (Ok.none _ _ (by simp [Op.at])) hHd (fun k => ⟨kStay rfl rfl, Ok.none _ _ (by simp [Op.at])⟩) (fun i hi => ⟨?_, Ok.none _ _ (by simp [Op.at])⟩) (by simp [Op.at])
        by_cases hij : i = j
        · subst hij; simp [jHold, hjs, upd_same, wHold, hg, after, takes, gives, Op.gor]
        · exact jStay (upd_ne _ _ hij) rfl rfl
      · simp only [Option.some.injEq] at hstep
        subst hstep
        exact M.extend _ (.pool g) rfl rfl (by simp [Op.gor]) (Ok.none _ _ (by simp [Op.at])) hHd (fun k => ⟨kStay rfl rfl, Ok.none _ _ (by simp [Op.at])⟩)
          (fun i hi => ⟨jStay rfl rfl rfl, Ok.none _ _ (by simp [Op.at])⟩) (by simp [Op.at])
    · cases hstep
  | proc w =>
    simp only [step] at hstep
    split at hstep
    · rename_i g j hg hp
      simp only [Option.some.injEq] at hstep
      subst hstep
      have hj := I.f w j hp
      have hc := I.c1 w j (I.d w j hj.1).1
      have hk : kHold s (s.jk j) = .gor (.pool g) := by
        rw [hc.1]
        simp [kHold, I.a2 w (by rw [hg]; simp), wHold, hg]
      have hjh : jHold s j = .gor (.pool g) := by simp [jHold, hj.2, wHold, hg]
      refine M.extend _ (.pool g) rfl rfl (by simp [Op.gor]) (Ok.none _ _ (by simp [Op.at])) (fun w' => Ok.none _ _ (by simp [Op.at])) (fun k => ?_) (fun i hi => ?_) (by simp [Op.at]; exact hc.2)
      · refine ⟨kStay rfl rfl, ?_⟩
        by_cases hkk : s.jk j = k
        · subst hkk
          refine Ok.same (h := .gor (.pool g)) ?_ hk ?_
          · exact hk
          simp [Ok, Op.at, takes, gives, after, Op.gor]
        · exact Ok.none _ _ (by simp [Op.at, hkk])
      · refine ⟨jStay rfl rfl rfl, ?_⟩
        by_cases hij : j = i
        · subst hij
          refine Ok.same (h := .gor (.pool g)) ?_ hjh ?_
          · exact hjh
          simp [Ok, Op.at, takes, gives, after, Op.gor]
        · exact Ok.none _ _ (by simp [Op.at, hij])
    · cases hstep
  | adv w =>
    simp only [step] at hstep
    split at hstep
    · rename_i g j hg hp
      simp only [Option.some.injEq] at hstep
      subst hstep
      obtain ⟨r1, r2, r3, r4, r5, r6, r7, r8, r9, r10⟩ := fill_rest s w
      have hk : ∀ k, kHold { fill s w with tr := s.tr ++ ([.lock (.pool g) (.head w), .acc (.pool g) (.head w) true] ++ fillOps s (.pool g) w ++ [.unlock (.pool g) (.head w)]), mem := upd s.mem w ((s.mem w).erase j), ph := upd s.ph w (.adv j) } k = kHold s k :=
        fun k => kHold_same r5 r8 k
      have hq : (fillOps s (.pool g) w = [] ∧ (fill s w).jst = s.jst) ∨ ∃ j', j' ∈ s.q w ∧ fillOps s (.pool g) w = [.rcv (.pool g) (.item j')] ∧ (fill s w).jst = upd s.jst j' (.head w) := by
        unfold fillOps fill
        cases hq : s.q w with
        | nil => exact .inl ⟨rfl, rfl⟩
        | cons j' q => exact .inr ⟨j', by simp, rfl, rfl⟩
      have wsame : ∀ w', wHold { fill s w with tr := s.tr ++ ([.lock (.pool g) (.head w), .acc (.pool g) (.head w) true] ++ fillOps s (.pool g) w ++ [.unlock (.pool g) (.head w)]), mem := upd s.mem w ((s.mem w).erase j), ph := upd s.ph w (.adv j) } w' = wHold s w' :=
        fun w' => by simp only [wHold, r8]
      refine M.extend _ (.pool g) rfl r2 ?_ ?_ (fun w' => ?_) (fun k => ?_) (fun i hi => ?_) ?_
      · rcases hq with ⟨h1, _⟩ | ⟨j', _, h1, _⟩ <;> rw [h1] <;> simp [Op.gor]
      · rcases hq with ⟨h1, _⟩ | ⟨j', _, h1, _⟩ <;> rw [h1] <;> exact Ok.none _ _ (by simp [Op.at])
      · by_cases hww : w = w'
        · subst hww; rcases hq with ⟨h1, _⟩ | ⟨j', _, h1, _⟩ <;> rw [h1] <;> simp [Ok, Op.at, takes, gives, after, Op.gor]
        · rcases hq with ⟨h1, _⟩ | ⟨j', _, h1, _⟩ <;> rw [h1] <;> exact Ok.none _ _ (by simp [Op.at, hww])
      · rw [hk k]
        exact ⟨after_sub _ _ (by simp), by rcases hq with ⟨h1, _⟩ | ⟨j', _, h1, _⟩ <;> rw [h1] <;> exact Ok.none _ _ (by simp [Op.at])⟩
      · refine ⟨?_, by rcases hq with ⟨h1, _⟩ | ⟨j', _, h1, _⟩ <;> rw [h1] <;> exact Ok.none _ _ (by simp [Op.at])⟩
        rcases hq with ⟨h1, h2⟩ | ⟨j', hm, h1, h2⟩
        · exact jStay (by simp only []; rw [h2]) r4 r8
        · by_cases hij : i = j'
          · subst hij
            have h3 : jHold s i = .msg (.item i) := by simp [jHold, (I.e w i hm).1]
            have h4 : jHold { fill s w with tr := s.tr ++ ([.lock (.pool g) (.head w), .acc (.pool g) (.head w) true] ++ fillOps s (.pool g) w ++ [.unlock (.pool g) (.head w)]), mem := upd s.mem w ((s.mem w).erase j), ph := upd s.ph w (.adv j) } i = .lck (.head w) := by
              simp [jHold, h2, upd_same]
            rw [h3, h4, h1]
            simp [takes, gives, after, Op.gor]
          · exact jStay (by simp only []; rw [h2, upd_ne _ _ hij]) r4 r8
      · rcases hq with ⟨h1, _⟩ | ⟨j', _, h1, _⟩ <;> rw [h1] <;> simp [Op.at]
    · cases hstep
  | comp w =>
    simp only [step] at hstep
    split at hstep
    · rename_i g j hg hp
      simp only [Option.some.injEq] at hstep
      subst hstep
      refine M.pass (j := j) (.pool g) _ rfl (by simp [Op.gor]) (by simp [Op.at]) rfl rfl rfl rfl (fun i hi => upd_ne _ _ hi) ?_
      simp [jHold, I.i w j hp, wHold, hg, upd_same, after, takes, gives, Op.gor]
    · cases hstep
  | rel w =>
    simp only [step] at hstep
    split at hstep
    · rename_i g hg hp
      have noproc : ∀ j, s.jst j ≠ .proc w := fun j h2 => by
        have := I.p w j h2
        rw [hp] at this
        rcases this with h | h <;> cases h
      have hwk := I.a2 w (by rw [hg]; simp)
      have go : ∀ s' : St, s'.tr = s.tr ++ [.lock (.pool g) .mux, .acc (.pool g) .shared true, .lock (.pool g) (.head w), .acc (.pool g) (.head w) false, .unlock (.pool g) (.head w), .unlock (.pool g) .mux] → s'.jobs = s.jobs → s'.own = s.own → s'.jst = s.jst →
          (∀ w', w' ≠ w → s'.wst w' = s.wst w') → (∀ k, k ≠ s.wkey w → s'.map k = s.map k) → (kHold s' (s.wkey w) = .lck .mux ∨ kHold s' (s.wkey w) = .gor (.pool g)) → MI s' := by
        intro s' t1 t2 t3 t4 t5 t6 t7
        have wsame : ∀ w', w' ≠ w → wHold s' w' = wHold s w' := fun w' h => by simp only [wHold, t5 w' h]
        refine M.extend _ (.pool g) t1 t2 (by simp [Op.gor]) (by simp [Ok, Op.at, takes, gives, after, Op.gor]) (fun w' => ?_) (fun k => ⟨?_, Ok.none _ _ (by simp [Op.at])⟩) (fun i hi => ⟨?_, Ok.none _ _ (by simp [Op.at])⟩) (by simp [Op.at])
        · by_cases hww : w = w'
          · subst hww; simp [Ok, Op.at, takes, gives, after, Op.gor]
          · exact Ok.none _ _ (by simp [Op.at, hww])
        · by_cases hk : k = s.wkey w
          · subst hk
            have : kHold s (s.wkey w) = .gor (.pool g) := by simp [kHold, hwk, wHold, hg]
            rw [this]
            rcases t7 with h | h <;> rw [h] <;> simp [after, takes, gives, Op.gor]
          · have : kHold s' k = kHold s k := by
              simp only [kHold, t6 k hk]
              cases hm : s.map k with
              | none => rfl
              | some w' => exact wsame w' fun h => by subst h; exact hk (I.a1 _ _ hm).1.symm
            rw [this]; exact after_sub _ _ (by simp)
        · rw [jHold_eq (s := s) (by rw [t4]) t3 fun w' h1 => wsame w' fun h2 => ?_]
          · exact after_sub _ _ (by simp)
          · subst h2; exact noproc i h1
      split at hstep
      · simp only [Option.some.injEq] at hstep
        subst hstep
        exact go _ rfl rfl rfl rfl (fun w' h => upd_ne _ _ h) (fun k h => upd_ne _ _ h) (.inl (by simp [kHold, upd_same]))
      · simp only [Option.some.injEq] at hstep
        subst hstep
        exact go _ rfl rfl rfl rfl (fun w' h => upd_ne _ _ h) (fun k h => rfl) (.inr (by simp [kHold, hwk, wHold, upd_same]))
    · cases hstep
  | fin j =>
    simp only [step] at hstep
    split at hstep
    · rename_i hc
      simp only [Option.some.injEq] at hstep
      subst hstep
      refine M.pass (j := j) (.work (s.own j)) _ rfl (by simp [Op.gor]) (by simp [Op.at]) rfl rfl rfl rfl (fun i hi => upd_ne _ _ hi) ?_
      simp [jHold, hc.2, upd_same, after, takes, gives, Op.gor]
    · cases hstep
  | use j =>
    simp only [step] at hstep
    split at hstep
    · rename_i hc
      simp only [Option.some.injEq] at hstep
      subst hstep
      have hjh : jHold s j = .gor (.work (s.own j)) := by simp [jHold, hc.2]
      refine M.extend _ (.work (s.own j)) rfl rfl (by simp [Op.gor]) (Ok.none _ _ (by simp [Op.at])) (fun w' => Ok.none _ _ (by simp [Op.at])) (fun k => ⟨kStay rfl rfl, Ok.none _ _ (by simp [Op.at])⟩) (fun i hi => ?_) (by simp [Op.at]; exact hc.1)
      refine ⟨jStay rfl rfl rfl, ?_⟩
      by_cases hij : j = i
      · subst hij
        refine Ok.same (h := .gor (.work (s.own j))) ?_ hjh ?_
        · exact hjh
        simp [Ok, Op.at, takes, gives, after, Op.gor]
      · exact Ok.none _ _ (by simp [Op.at, hij])
    · cases hstep

theorem mi_reach {s : St} (hs : Reach s) : MI s := by
  induction hs with
  | init => exact mi_init
  | step x h0 h ih => exact mi_step ih (si_reach h0) h

end Verif.Serial
