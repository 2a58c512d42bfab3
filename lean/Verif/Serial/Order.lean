import Verif.Serial.Proofs
/-
Messages are sent once, before they are received.
-/
namespace Verif.Serial
open Verif.Eos (upd)

theorem Before.lt {tr : List Op} {i j : Nat} (h : Before tr i j) : i < j := by
  induction h with
  | same h => exact h
  | chan h => exact h
  | lock h => exact h
  | trans _ _ h1 h2 => omega

/-- It is not to be sent on the channel of a queue any more. -/
def past : JSt → Bool
  | .new | .wait _ => false
  | _ => true

/-- It was sent on `asyncJobs`. -/
def done : JSt → Bool
  | .sent | .fin => true
  | _ => false

/-- What was sent so far. -/
structure NI (s : St) : Prop where
  wk : ∀ g n, Op.snd g (.wk n) ∈ s.tr → n < s.sends
  item : ∀ g j, Op.snd g (.item j) ∈ s.tr → past (s.jst j) = true
  fin : ∀ g j, Op.snd g (.fin j) ∈ s.tr → done (s.jst j) = true
  cw : ∀ w n, s.wst w = .chan n → ∃ g, Op.snd g (.wk n) ∈ s.tr
  cj : ∀ w j, s.jst j = .chan w → ∃ g, Op.snd g (.item j) ∈ s.tr
  cs : ∀ j, s.jst j = .sent → ∃ g, Op.snd g (.fin j) ∈ s.tr
  ord : Orderly s.tr

/-- Nothing is sent or received. -/
def Silent (l : List Op) : Prop := ∀ o ∈ l, (∀ g m, o ≠ .snd g m) ∧ ∀ g m, o ≠ .rcv g m

theorem Orderly.silent {tr l : List Op} (h : Orderly tr) (hl : Silent l) : Orderly (tr ++ l) := by
  obtain ⟨h1, h2⟩ := h
  constructor
  · intro j g m hj
    rcases get_append hj with hj | ⟨l1, l2, rfl, rfl⟩
    · obtain ⟨i, g', hi, hg⟩ := h1 j g m hj
      exact ⟨i, g', hi, get_left hg⟩
    · exact absurd rfl ((hl (.rcv g m) (by simp)).2 g m)
  · intro i j g g' m hi hj
    rcases get_append hi with hi | ⟨l1, l2, rfl, rfl⟩
    · rcases get_append hj with hj | ⟨m1, m2, rfl, rfl⟩
      · exact h2 i j g g' m hi hj
      · exact absurd rfl ((hl (.snd g' m) (by simp)).1 g' m)
    · exact absurd rfl ((hl (.snd g m) (by simp)).1 g m)

theorem Orderly.send {tr : List Op} {g : Gor} {m : Msg} (h : Orderly tr) (hn : ∀ g', Op.snd g' m ∉ tr) : Orderly (tr ++ [.snd g m]) := by
  obtain ⟨h1, h2⟩ := h
  have last : ∀ (p : Nat) (o : Op), (tr ++ [.snd g m])[p]? = some o → tr[p]? = some o ∨ (o = .snd g m ∧ p = tr.length) := by
    intro p o hp
    rcases get_append hp with hp | ⟨l1, l2, hl, rfl⟩
    · exact .inl hp
    · cases l1 with
      | nil => simp at hl; exact .inr ⟨hl.1.symm, rfl⟩
      | cons a l1 => simp at hl
  constructor
  · intro j g' m' hj
    rcases last j _ hj with hj | ⟨hj, _⟩
    · obtain ⟨i, g'', hi, hg⟩ := h1 j g' m' hj
      exact ⟨i, g'', hi, get_left hg⟩
    · cases hj
  · intro i j g1 g2 m' hi hj
    rcases last i _ hi with hi | ⟨hi, hil⟩ <;> rcases last j _ hj with hj | ⟨hj, hjl⟩
    · exact h2 i j g1 g2 m' hi hj
    · cases hj; exact absurd (List.mem_of_getElem? hi) (hn _)
    · cases hi; exact absurd (List.mem_of_getElem? hj) (hn _)
    · omega

theorem Orderly.receive {tr : List Op} {g : Gor} {m : Msg} (h : Orderly tr) (hn : ∃ g', Op.snd g' m ∈ tr) : Orderly (tr ++ [.rcv g m]) := by
  obtain ⟨h1, h2⟩ := h
  have last : ∀ (p : Nat) (o : Op), (tr ++ [.rcv g m])[p]? = some o → tr[p]? = some o ∨ (o = .rcv g m ∧ p = tr.length) := by
    intro p o hp
    rcases get_append hp with hp | ⟨l1, l2, hl, rfl⟩
    · exact .inl hp
    · cases l1 with
      | nil => simp at hl; exact .inr ⟨hl.1.symm, rfl⟩
      | cons a l1 => simp at hl
  constructor
  · intro j g' m' hj
    rcases last j _ hj with hj | ⟨hj, hjl⟩
    · obtain ⟨i, g'', hi, hg⟩ := h1 j g' m' hj
      exact ⟨i, g'', hi, get_left hg⟩
    · cases hj
      obtain ⟨g', hg'⟩ := hn
      obtain ⟨i, hi⟩ := List.mem_iff_getElem?.mp hg'
      exact ⟨i, g', by rw [hjl]; exact lt_of_get hi, get_left hi⟩
  · intro i j g1 g2 m' hi hj
    rcases last i _ hi with hi | ⟨hi, _⟩ <;> rcases last j _ hj with hj | ⟨hj, _⟩
    · exact h2 i j g1 g2 m' hi hj
    · cases hj
    · cases hi
    · cases hi

theorem silent_mem {tr l : List Op} (hl : Silent l) {g : Gor} {m : Msg} : Op.snd g m ∈ tr ++ l ↔ Op.snd g m ∈ tr := by
  constructor
  · intro h
    rcases List.mem_append.mp h with h | h
    · exact h
    · exact absurd rfl ((hl _ h).1 g m)
  · exact List.mem_append_left _

theorem ni_init : NI St.init := by
  constructor <;> simp [St.init, Orderly]

theorem NI.grow {s s' : St} (N : NI s) (l : List Op) (htr : s'.tr = s.tr ++ l) (hs : s.sends ≤ s'.sends)
    (hp : ∀ j, past (s.jst j) = true → past (s'.jst j) = true) (hd : ∀ j, done (s.jst j) = true → done (s'.jst j) = true)
    (lw : ∀ g n, Op.snd g (.wk n) ∈ l → n < s'.sends) (li : ∀ g j, Op.snd g (.item j) ∈ l → past (s'.jst j) = true) (lf : ∀ g j, Op.snd g (.fin j) ∈ l → done (s'.jst j) = true)
    (cw : ∀ w n, s'.wst w = .chan n → s.wst w = .chan n ∨ ∃ g, Op.snd g (.wk n) ∈ l)
    (cj : ∀ w j, s'.jst j = .chan w → s.jst j = .chan w ∨ ∃ g, Op.snd g (.item j) ∈ l)
    (cs : ∀ j, s'.jst j = .sent → s.jst j = .sent ∨ ∃ g, Op.snd g (.fin j) ∈ l) (ho : Orderly (s.tr ++ l)) : NI s' := by
  obtain ⟨n1, n2, n3, n4, n5, n6, n7⟩ := N
  refine ⟨fun g n h => ?_, fun g j h => ?_, fun g j h => ?_, fun w n h => ?_, fun w j h => ?_, fun j h => ?_, by rw [htr]; exact ho⟩
  · rw [htr] at h
    rcases List.mem_append.mp h with h | h
    · exact Nat.lt_of_lt_of_le (n1 g n h) hs
    · exact lw g n h
  · rw [htr] at h
    rcases List.mem_append.mp h with h | h
    · exact hp j (n2 g j h)
    · exact li g j h
  · rw [htr] at h
    rcases List.mem_append.mp h with h | h
    · exact hd j (n3 g j h)
    · exact lf g j h
  · rw [htr]
    rcases cw w n h with h | ⟨g, h⟩
    · exact (n4 w n h).imp fun g hg => List.mem_append_left _ hg
    · exact ⟨g, List.mem_append_right _ h⟩
  · rw [htr]
    rcases cj w j h with h | ⟨g, h⟩
    · exact (n5 w j h).imp fun g hg => List.mem_append_left _ hg
    · exact ⟨g, List.mem_append_right _ h⟩
  · rw [htr]
    rcases cs j h with h | ⟨g, h⟩
    · exact (n6 j h).imp fun g hg => List.mem_append_left _ hg
    · exact ⟨g, List.mem_append_right _ h⟩

/-- A step that sends nothing and moves no job into a channel. -/
theorem NI.still {s s' : St} (N : NI s) (l : List Op) (htr : s'.tr = s.tr ++ l) (hl : ∀ g m, Op.snd g m ∉ l) (hs : s'.sends = s.sends)
    (hj : ∀ j, s'.jst j = s.jst j ∨ (past (s'.jst j) = true ∧ done (s.jst j) = false ∧ (∀ w, s'.jst j ≠ .chan w) ∧ s'.jst j ≠ .sent) ∨ (s'.jst j = .fin))
    (hw : ∀ w n, s'.wst w = .chan n → s.wst w = .chan n) (ho : Orderly (s.tr ++ l)) : NI s' := by
  refine N.grow l htr (by omega) (fun j h => ?_) (fun j h => ?_) (fun g n h => absurd h (hl _ _)) (fun g n h => absurd h (hl _ _)) (fun g n h => absurd h (hl _ _)) (fun w n h => .inl (hw w n h)) (fun w j h => ?_) (fun j h => ?_) ho
  · rcases hj j with h1 | ⟨h1, _⟩ | h1
    · rw [h1]; exact h
    · exact h1
    · rw [h1]; rfl
  · rcases hj j with h1 | ⟨_, h1, _⟩ | h1
    · rw [h1]; exact h
    · rw [h1] at h; cases h
    · rw [h1]; rfl
  · rcases hj j with h1 | ⟨_, _, h1, _⟩ | h1
    · rw [h1] at h; exact .inl h
    · exact absurd h (h1 w)
    · rw [h1] at h; cases h
  · rcases hj j with h1 | ⟨_, _, _, h1⟩ | h1
    · rw [h1] at h; exact .inl h
    · exact absurd h h1
    · rw [h1] at h; cases h

theorem ni_step {s s' : St} {x : Act} (N : NI s) (I : SI s) (h : step s x = some s') : NI s' := by
  cases x with
  | make p k =>
    simp only [step, Option.some.injEq] at h
    subst h
    have ism : upd s.jst s.jobs .new = s.jst := upd_eta _ _ (I.jn _ (Nat.le_refl _))
    exact N.still _ rfl (by simp) rfl (fun j => .inl (by simp only [ism])) (fun _ _ h => h) (N.ord.silent (by simp [Silent]))
  | add j w0 full =>
    simp only [step] at h
    split at h
    · rename_i hc
      simp only [Option.map_eq_some_iff] at h
      obtain ⟨w, hw, rfl⟩ := h
      have hsends : (enqueue s j w full).sends = s.sends := by
        obtain ⟨s1, X, hd, q, h1, h2, _⟩ := enqueue_cases s j w full
        rw [h2]
        rcases h1 with rfl | ⟨_, rfl⟩
        · rfl
        · exact (fill_rest s w).2.2.2.2.2.2.2.2.2
      have hws : ∀ w' n, (if (s.map (s.jk j)).isNone then upd s.wst w (.give (.work (s.own j))) else s.wst) w' = .chan n → s.wst w' = .chan n := by
        intro w' n h
        split at h
        · by_cases hww : w' = w
          · subst hww; rw [upd_same] at h; cases h
          · rw [upd_ne _ _ hww] at h; exact h
        · exact h
      have pre : Orderly (s.tr ++ [.lock (.work (s.own j)) .mux, .acc (.work (s.own j)) .shared true, .lock (.work (s.own j)) (.head w), .acc (.work (s.own j)) (.head w) true]) := N.ord.silent (by simp [Silent])
      have post : ∀ tr, Orderly tr → Orderly (tr ++ [.unlock (.work (s.own j)) (.head w), .unlock (.work (s.own j)) .mux]) := fun tr h => h.silent (by simp [Silent])
      have fresh : ∀ g', Op.snd g' (.item j) ∉ s.tr := fun g' h => by have := N.item g' j h; rw [hc.2] at this; cases this
      have sent : ∀ j', j' ∈ s.q w → ∃ g, Op.snd g (.item j') ∈ s.tr := fun j' h => N.cj w j' (I.e w j' h).1
      have nj : ∀ j', j' ∈ s.q w → j' ≠ j := fun j' h1 h2 => by have := (I.e w j' h1).1; rw [h2, hc.2] at this; cases this
      have jcase : ∀ (F : Nat → JSt) (X : JSt), (F = s.jst ∨ ∃ j', j' ∈ s.q w ∧ F = upd s.jst j' (.head w)) → ∀ i, (i = j ∧ upd F j X i = X) ∨ (i ≠ j ∧ upd F j X i = s.jst i) ∨ (i ≠ j ∧ i ∈ s.q w ∧ upd F j X i = .head w) := by
        intro F X hF i
        by_cases hij : i = j
        · subst hij; exact .inl ⟨rfl, upd_same _ _ _⟩
        · rw [upd_ne _ _ hij]
          rcases hF with rfl | ⟨j', hq, rfl⟩
          · exact .inr (.inl ⟨hij, rfl⟩)
          · by_cases hi' : i = j'
            · subst hi'; rw [upd_same]; exact .inr (.inr ⟨hij, hq, rfl⟩)
            · rw [upd_ne _ _ hi']; exact .inr (.inl ⟨hij, rfl⟩)
      have go : ∀ (F : Nat → JSt) (X : JSt) (mid : List Op), (F = s.jst ∨ ∃ j', j' ∈ s.q w ∧ F = upd s.jst j' (.head w)) → enqueueOps s (.work (s.own j)) j w full = mid → (enqueue s j w full).jst = upd F j X → X ≠ .sent →
          (∀ g m, Op.snd g m ∈ mid → m = .item j ∧ past X = true) → (∀ w, X = .chan w → ∃ g, Op.snd g (.item j) ∈ mid) →
          Orderly (s.tr ++ [.lock (.work (s.own j)) .mux, .acc (.work (s.own j)) .shared true, .lock (.work (s.own j)) (.head w), .acc (.work (s.own j)) (.head w) true] ++ mid) →
          NI { enqueue s j w full with
            tr := s.tr ++ ([.lock (.work (s.own j)) .mux, .acc (.work (s.own j)) .shared true, .lock (.work (s.own j)) (.head w), .acc (.work (s.own j)) (.head w) true] ++ enqueueOps s (.work (s.own j)) j w full ++ [.unlock (.work (s.own j)) (.head w), .unlock (.work (s.own j)) .mux])
            map := upd s.map (s.jk j) (some w), wkey := upd s.wkey w (s.jk j), mem := upd s.mem w (s.mem w ++ [j]), wst := if (s.map (s.jk j)).isNone then upd s.wst w (.give (.work (s.own j))) else s.wst } := by
        intro F X mid hF h1 h2 hX hm hm2 ho
        rw [h1]
        have inmid : ∀ g m, Op.snd g m ∈ [.lock (.work (s.own j)) .mux, .acc (.work (s.own j)) .shared true, .lock (.work (s.own j)) (.head w), .acc (.work (s.own j)) (.head w) true] ++ mid ++ [.unlock (.work (s.own j)) (.head w), .unlock (.work (s.own j)) .mux] → m = .item j ∧ past X = true := by
          intro g m h
          simp at h
          exact hm g m h
        refine N.grow _ rfl (by simp only []; omega) (fun i h => ?_) (fun i h => ?_) (fun g n h => ?_) (fun g i h => ?_) (fun g i h => ?_) (fun w' n h => .inl (hws w' n h)) (fun w' i h => ?_) (fun i h => ?_) ?_
        · simp only [h2]
          rcases jcase F X hF i with ⟨rfl, h3⟩ | ⟨_, h3⟩ | ⟨_, _, h3⟩
          · rw [hc.2] at h; cases h
          · rw [h3]; exact h
          · rw [h3]; rfl
        · simp only [h2]
          rcases jcase F X hF i with ⟨rfl, h3⟩ | ⟨_, h3⟩ | ⟨_, h4, h3⟩
          · rw [hc.2] at h; cases h
          · rw [h3]; exact h
          · rw [(I.e w i h4).1] at h; cases h
        · cases (inmid g _ h).1
        · have := inmid g _ h
          cases this.1
          simp only [h2, upd_same]; exact this.2
        · cases (inmid g _ h).1
        · simp only [h2] at h
          rcases jcase F X hF i with ⟨rfl, h3⟩ | ⟨_, h3⟩ | ⟨_, h4, h3⟩
          · rw [h3] at h
            obtain ⟨g, hg⟩ := hm2 w' h
            exact .inr ⟨g, by simp [hg]⟩
          · rw [h3] at h; exact .inl h
          · rw [h3] at h; cases h
        · simp only [h2] at h
          rcases jcase F X hF i with ⟨rfl, h3⟩ | ⟨_, h3⟩ | ⟨_, h4, h3⟩
          · rw [h3] at h; exact absurd h hX
          · rw [h3] at h; exact .inl h
          · rw [h3] at h; cases h
        · have := post _ ho
          simpa only [List.append_assoc] using this
      have sent' : ∀ j', j' ∈ s.q w → ∃ g, Op.snd g (.item j') ∈ s.tr ++ [.lock (.work (s.own j)) .mux, .acc (.work (s.own j)) .shared true, .lock (.work (s.own j)) (.head w), .acc (.work (s.own j)) (.head w) true] :=
        fun j' h => (sent j' h).imp fun g hg => List.mem_append_left _ hg
      rcases add_cases s (.work (s.own j)) j w full with ⟨h1, h2⟩ | ⟨j', hq, h1, h2⟩ | ⟨j', hq, h1, h2⟩ | ⟨h1, h2⟩ | ⟨h1, h2⟩
      · exact go s.jst _ _ (.inl rfl) h1 h2 (by simp) (by simp) (by simp) (by rw [List.append_nil]; exact pre)
      · exact go _ _ _ (.inr ⟨j', hq, rfl⟩) h1 h2 (by simp) (by simp) (by simp) (pre.receive (sent' j' hq))
      · refine go _ _ _ (.inr ⟨j', hq, rfl⟩) h1 h2 (by simp) (by simp [past]) (fun _ _ => ⟨.work (s.own j), by simp⟩) ?_
        have h3 := pre.receive (g := .work (s.own j)) (sent' j' hq)
        have h4 := h3.send (g := .work (s.own j)) (m := .item j) (fun g' h => fresh g' (by simpa using h))
        simpa only [List.append_assoc, List.cons_append, List.nil_append] using h4
      · exact go s.jst _ _ (.inl rfl) h1 h2 (by simp) (by simp) (by simp) (by rw [List.append_nil]; exact pre)
      · exact go s.jst _ _ (.inl rfl) h1 h2 (by simp) (by simp [past]) (fun _ _ => ⟨.work (s.own j), by simp⟩) (pre.send (fun g' h => fresh g' (by simpa using h)))
    · cases h
  | block j =>
    simp only [step] at h
    split at h
    · rename_i w hj
      split at h
      · simp only [Option.some.injEq] at h
        subst h
        refine N.grow _ rfl (Nat.le_refl _) (fun i h => ?_) (fun i h => ?_) (by simp) (fun g i h => ?_) (by simp) (fun _ _ h => .inl h) (fun w' i h => ?_) (fun i h => ?_) (N.ord.send fun g' h => by have := N.item g' j h; rw [hj] at this; cases this)
        · by_cases hij : i = j
          · subst hij; simp only [upd_same]; rfl
          · simp only [upd_ne _ _ hij]; exact h
        · by_cases hij : i = j
          · subst hij; rw [hj] at h; cases h
          · simp only [upd_ne _ _ hij]; exact h
        · simp at h; obtain ⟨_, rfl⟩ := h; simp only [upd_same]; rfl
        · by_cases hij : i = j
          · subst hij; exact .inr ⟨.work (s.own i), by simp⟩
          · simp only [upd_ne _ _ hij] at h; exact .inl h
        · by_cases hij : i = j
          · subst hij; simp only [upd_same] at h; cases h
          · simp only [upd_ne _ _ hij] at h; exact .inl h
      · cases h
    · cases h
  | enq w =>
    simp only [step] at h
    split at h
    · rename_i g hg
      simp only [Option.some.injEq] at h
      subst h
      refine N.grow _ rfl (by simp only []; omega) (fun _ h => h) (fun _ h => h) (by simp) (by simp) (by simp) (fun w' n h => ?_) (fun _ _ h => .inl h) (fun _ h => .inl h) (N.ord.send fun g' h => by have := N.wk g' _ h; omega)
      by_cases hww : w' = w
      · subst hww; simp only [upd_same, WSt.chan.injEq] at h; subst h; exact .inr ⟨g, by simp⟩
      · simp only [upd_ne _ _ hww] at h; exact .inl h
    · cases h
  | take g w =>
    simp only [step] at h
    split at h
    · rename_i n hn
      simp only [Option.some.injEq] at h
      subst h
      refine N.still _ rfl (by simp) rfl (fun j => .inl rfl) (fun w' n h => ?_) (N.ord.receive (N.cw w n hn))
      by_cases hww : w' = w
      · subst hww; simp only [upd_same] at h; cases h
      · simp only [upd_ne _ _ hww] at h; exact h
    · cases h
  | peek w =>
    simp only [step] at h
    split at h
    · rename_i g hg hp
      split at h
      · rename_i j hj
        simp only [Option.some.injEq] at h
        subst h
        refine N.still _ rfl (by simp) rfl (fun i => ?_) (fun _ _ h => h) (N.ord.silent (by simp [Silent]))
        by_cases hij : i = j
        · subst hij
          refine .inr (.inl ?_)
          simp only [upd_same]
          refine ⟨rfl, ?_, by simp, by simp⟩
          rcases (I.d w i hj).2 with h1 | h1
          · rw [h1]; rfl
          · rw [h1.1]; rfl
        · exact .inl (upd_ne _ _ hij)
      · simp only [Option.some.injEq] at h
        subst h
        exact N.still _ rfl (by simp) rfl (fun j => .inl rfl) (fun _ _ h => h) (N.ord.silent (by simp [Silent]))
    · cases h
  | proc w =>
    simp only [step] at h
    split at h
    · simp only [Option.some.injEq] at h
      subst h
      exact N.still _ rfl (by simp) rfl (fun j => .inl rfl) (fun _ _ h => h) (N.ord.silent (by simp [Silent]))
    · cases h
  | adv w =>
    simp only [step] at h
    split at h
    · rename_i g j hg hp
      simp only [Option.some.injEq] at h
      subst h
      obtain ⟨r1, r2, r3, r4, r5, r6, r7, r8, r9, r10⟩ := fill_rest s w
      have pre : Orderly (s.tr ++ [.lock (.pool g) (.head w), .acc (.pool g) (.head w) true]) := N.ord.silent (by simp [Silent])
      have hq : (fillOps s (.pool g) w = [] ∧ (fill s w).jst = s.jst) ∨ ∃ j', j' ∈ s.q w ∧ fillOps s (.pool g) w = [.rcv (.pool g) (.item j')] ∧ (fill s w).jst = upd s.jst j' (.head w) := by
        unfold fillOps fill
        cases hq : s.q w with
        | nil => exact .inl ⟨rfl, rfl⟩
        | cons j' q => exact .inr ⟨j', by simp, rfl, rfl⟩
      rcases hq with ⟨h1, h2⟩ | ⟨j', hm, h1, h2⟩
      · refine N.still _ rfl (by rw [h1]; simp) r10 (fun i => .inl (by simp only []; rw [h2])) (fun w' n h => by simp only [] at h; rw [r8] at h; exact h) (N.ord.silent ?_)
        rw [h1]; simp [Silent]
      · refine N.still _ rfl (by rw [h1]; simp) r10 (fun i => ?_) (fun w' n h => by simp only [] at h; rw [r8] at h; exact h) ?_
        · simp only [h2]
          by_cases hij : i = j'
          · subst hij; simp only [upd_same]; exact .inr (.inl ⟨rfl, by rw [(I.e w i hm).1]; rfl, by simp, by simp⟩)
          · exact .inl (upd_ne _ _ hij)
        · rw [h1]
          have h3 := pre.receive (g := .pool g) ((N.cj w j' (I.e w j' hm).1).imp fun g' hg' => List.mem_append_left _ hg')
          have h4 := h3.silent (l := [.unlock (.pool g) (.head w)]) (by simp [Silent])
          simpa only [List.append_assoc, List.cons_append, List.nil_append] using h4
    · cases h
  | comp w =>
    simp only [step] at h
    split at h
    · rename_i g j hg hp
      simp only [Option.some.injEq] at h
      subst h
      have hj := I.i w j hp
      refine N.grow _ rfl (Nat.le_refl _) (fun i h => ?_) (fun i h => ?_) (by simp) (by simp) (fun g i h => ?_) (fun _ _ h => .inl h) (fun w' i h => ?_) (fun i h => ?_) (N.ord.send fun g' h => by have := N.fin g' j h; rw [hj] at this; cases this)
      · by_cases hij : i = j
        · subst hij; simp only [upd_same]; rfl
        · simp only [upd_ne _ _ hij]; exact h
      · by_cases hij : i = j
        · subst hij; rw [hj] at h; cases h
        · simp only [upd_ne _ _ hij]; exact h
      · simp at h; obtain ⟨_, rfl⟩ := h; simp only [upd_same]; rfl
      · by_cases hij : i = j
        · subst hij; simp only [upd_same] at h; cases h
        · simp only [upd_ne _ _ hij] at h; exact .inl h
      · by_cases hij : i = j
        · subst hij; exact .inr ⟨.pool g, by simp⟩
        · simp only [upd_ne _ _ hij] at h; exact .inl h
    · cases h
  | rel w =>
    simp only [step] at h
    split at h
    · rename_i g hg hp
      split at h
      · simp only [Option.some.injEq] at h
        subst h
        refine N.still _ rfl (by simp) rfl (fun j => .inl rfl) (fun w' n h => ?_) (N.ord.silent (by simp [Silent]))
        by_cases hww : w' = w
        · subst hww; simp only [upd_same] at h; cases h
        · simp only [upd_ne _ _ hww] at h; exact h
      · simp only [Option.some.injEq] at h
        subst h
        refine N.still _ rfl (by simp) rfl (fun j => .inl rfl) (fun w' n h => ?_) (N.ord.silent (by simp [Silent]))
        by_cases hww : w' = w
        · subst hww; simp only [upd_same] at h; cases h
        · simp only [upd_ne _ _ hww] at h; exact h
    · cases h
  | fin j =>
    simp only [step] at h
    split at h
    · rename_i hc
      simp only [Option.some.injEq] at h
      subst h
      refine N.still _ rfl (by simp) rfl (fun i => ?_) (fun _ _ h => h) (N.ord.receive (N.cs j hc.2))
      by_cases hij : i = j
      · subst hij; exact .inr (.inr (upd_same _ _ _))
      · exact .inl (upd_ne _ _ hij)
    · cases h
  | use j =>
    simp only [step] at h
    split at h
    · simp only [Option.some.injEq] at h
      subst h
      exact N.still _ rfl (by simp) rfl (fun j => .inl rfl) (fun _ _ h => h) (N.ord.silent (by simp [Silent]))
    · cases h

theorem ni_reach {s : St} (hs : Reach s) : NI s := by
  induction hs with
  | init => exact ni_init
  | step x h0 h ih => exact ni_step ih (si_reach h0) h

/-- An access after which its goroutine does nothing more happens before nothing. -/
theorem not_before {tr : List Op} {p : Nat} {g : Gor} {L : Loc} {w : Bool} (hp : tr[p]? = some (.acc g L w)) (hl : ∀ q o, p < q → tr[q]? = some o → o.gor ≠ g) : ∀ q, ¬ Before tr p q := by
  intro q h
  generalize hp' : p = p' at h
  induction h with
  | same hij h1 h2 h3 => subst hp'; rw [hp] at h1; cases h1; exact hl _ _ hij h2 h3.symm
  | chan _ h1 _ => subst hp'; rw [hp] at h1; cases h1
  | lock _ h1 _ => subst hp'; rw [hp] at h1; cases h1
  | trans _ _ ih _ => exact ih hp'

theorem reach_run {s s' : St} (hs : Reach s) (acts : List Act) (h : run s acts = some s') : Reach s' := by
  induction acts generalizing s with
  | nil => simp only [run, Option.some.injEq] at h; subst h; exact hs
  | cons x xs ih =>
    simp only [run, Option.bind_eq_some_iff] at h
    obtain ⟨s1, h1, h2⟩ := h
    exact ih (.step x hs h1) h2

end Verif.Serial
