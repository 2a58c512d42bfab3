import Verif.Whole.Worker
import Verif.Fleet.NoLoss
/-
The steps of the group as a relation.
-/
namespace Verif.Whole
open Verif.Eos (Ev Pool)
open Verif.Effects (Inc)
open Verif.Worker (PW It)

variable {c : Eos.Cfg} {ecap : Nat} {src : Nat → List Nat} {w w' : Group}

/-- The steps, with what they require. -/
inductive Goes (c : Eos.Cfg) (ecap : Nat) (src : Nat → List Nat) (w : Group) : Group → Prop where
  | start : Goes c ecap src w { w with n := w.n + 1 }
  | crash {k : Nat} : w.alive k = true → Goes c ecap src w { w with dead := Eos.upd w.dead k true }
  | assign {k tp f : Nat} : w.alive k = true → w.cur k tp = none → Goes c ecap src w { w with
      nw := Eos.upd w.nw k (w.nw k + 1)
      part := Eos.upd w.part k (Eos.upd (w.part k) (w.nw k) tp)
      start := Eos.upd w.start k (Eos.upd (w.start k) (w.nw k) f)
      cur := Eos.upd w.cur k (Eos.upd (w.cur k) tp (some (w.nw k))) }
  | revoke {k tp j : Nat} : w.alive k = true → w.cur k tp = some j →
      Goes c ecap src w { w.set k j { w.wks k j with revoked := true } with cur := Eos.upd w.cur k (Eos.upd (w.cur k) tp none) }
  | fetch {k j : Nat} {recs : List (Option Nat)} {s : PW} : w.alive k = true → j < w.nw k →
      ((w.wks k j).fetched ++ recs).filterMap id <+: ((src (w.part k j)).filter fun o => w.start k j ≤ o) →
      Worker.step (wcfg c ecap) (w.wks k j) (.offer recs) = some s → Goes c ecap src w (w.set k j s)
  | ready {k j : Nat} {wm : Int} : w.alive k = true → j < w.nw k → -1 ≤ wm → wm.toNat ∈ 0 :: w.log (w.part k j) →
      w.start k j ≤ wm.toNat → (w.wks k j).wk = .boot →
      Goes c ecap src w (w.set k j { w.wks k j with wk := .idle, push := .idle, highest := wm, wm := wm })
  | own {k j : Nat} {l : Worker.Label} {s : PW} : w.alive k = true → j < w.nw k → own l = true → w.ready k j l = true →
      completes (w.wks k j) l = none → Worker.step (wcfg c ecap) (w.wks k j) l = some s → Goes c ecap src w (w.set k j s)
  | complete {k j : Nat} {l : Worker.Label} {s : PW} {it : It} {p : Pool} : w.alive k = true → j < w.nw k → own l = true →
      completes (w.wks k j) l = some it → Worker.step (wcfg c ecap) (w.wks k j) l = some s →
      Eos.step c (w.inst k).pool (.complete (w.ev k j it)) = some p →
      Goes c ecap src w ((w.set k j s).move k { w.inst k with pool := p })
  | refuse {k j : Nat} {it : It} {buf : List It} {s : PW} : w.alive k = true → j < w.nw k → (w.wks k j).buf = it :: buf →
      (w.wks k j).revoked = true → Worker.step (wcfg c ecap) (w.wks k j) (.assign false) = some s → Goes c ecap src w (w.set k j s)
  | add {k j : Nat} {it : It} {buf : List It} {p : Pool} {s : PW} : w.alive k = true → j < w.nw k → (w.wks k j).buf = it :: buf →
      (w.wks k j).revoked = false → Eos.step c (w.inst k).pool (.add (w.ev k j it)) = some p →
      Worker.step (wcfg c ecap) (w.wks k j) (.assign (!((w.inst k).pool.nodes (w.inst k).pool.onDeck).has (w.part k j))) = some s →
      Goes c ecap src w ((w.set k j s).move k { w.inst k with pool := p })
  | emit {k j : Nat} {it : It} {v : Nat} {p : Pool} : w.alive k = true → j < w.nw k →
      ((w.wks k j).wk = .run it ∨ it ∈ (w.wks k j).pend) →
      Eos.step c (w.inst k).pool (.produce (w.ev k j it) (w.inst k).prods.length) = some p →
      Goes c ecap src w (w.move k ⟨p, (w.inst k).prods ++ [(w.ev k j it, v)]⟩)
  | pass {k q : Nat} {e : Ev} {es : List Ev} {fl : Bool} {rest : List Nat} {p : Pool} : w.alive k = true →
      (w.inst k).pool.com = .fin q (e :: es) fl rest → Eos.step c (w.inst k).pool .wait = some p →
      Goes c ecap src w ((w.setAll k (finalized (wcfg c ecap) (w.wks k) e)).move k { w.inst k with pool := p })
  | endTxn {k q : Nat} {order : List Nat} {cur : List Ev} {fl : Bool} {rest : List Nat} {p : Pool} : w.alive k = true →
      (w.inst k).pool.com = .fin q cur fl rest → Eos.step c (w.inst k).pool (.endTxn order) = some p →
      Goes c ecap src w
        ((w.setAll k (rooted (wcfg c ecap) (w.wks k) (rootEvs ((w.inst k).pool.nodes q).evs))).move k { w.inst k with pool := p })
  | pool {k : Nat} {l : Eos.Label} {p : Pool} : w.alive k = true →
      (poolOnly l = true ∨ l = .wait ∧ ∀ q e es fl rest, (w.inst k).pool.com ≠ .fin q (e :: es) fl rest) →
      Eos.step c (w.inst k).pool l = some p → Goes c ecap src w (w.move k { w.inst k with pool := p })

theorem goes_of_step {a : Act} (h : step c ecap src w a = some w') : Goes c ecap src w w' := by
  cases a with
  | start => cases h; exact .start
  | crash k =>
    simp only [step] at h; split at h
    · rename_i ha; cases h; exact .crash ha
    · cases h
  | assign k tp f =>
    simp only [step] at h; split at h
    · rename_i ha; cases h; exact .assign ha.1 ha.2
    · cases h
  | revoke k tp =>
    simp only [step] at h; split at h
    · rename_i ha
      split at h
      · rename_i j hj
        simp only [Worker.step, Option.map_some, Option.some.injEq] at h
        subst h; exact .revoke ha hj
      · cases h
    · cases h
  | fetch k j recs =>
    simp only [step] at h; split at h
    · rename_i ha
      obtain ⟨s, h1, rfl⟩ := Option.map_eq_some_iff.1 h
      exact .fetch ha.1 ha.2.1 (List.isPrefixOf_iff_prefix.1 ha.2.2) h1
    · cases h
  | ready k j wm =>
    simp only [step] at h; split at h
    · rename_i ha
      obtain ⟨s, h1, rfl⟩ := Option.map_eq_some_iff.1 h
      simp only [Worker.step] at h1
      split at h1
      · rename_i hb; cases h1
        exact .ready ha.1 ha.2.1 ha.2.2.1 ha.2.2.2.1 ha.2.2.2.2 hb
      · cases h1
    · cases h
  | own k j l =>
    simp only [step] at h; split at h
    · rename_i ha
      obtain ⟨s, h1, h2⟩ := Option.bind_eq_some_iff.1 h
      split at h2
      · rename_i hc; cases h2; exact .own ha.1 ha.2.1 ha.2.2.1 ha.2.2.2 hc h1
      · rename_i it hc
        obtain ⟨p, h3, rfl⟩ := Option.map_eq_some_iff.1 h2
        exact .complete ha.1 ha.2.1 ha.2.2.1 hc h1 h3
    · cases h
  | forward k j =>
    simp only [step] at h; split at h
    · rename_i ha
      split at h
      · rename_i it buf hb
        split at h
        · rename_i hr
          split at h
          · obtain ⟨s, h1, rfl⟩ := Option.map_eq_some_iff.1 h
            exact .refuse ha.1 ha.2 hb hr h1
          · cases h
        · rename_i hr
          obtain ⟨p, h1, h2⟩ := Option.bind_eq_some_iff.1 h
          obtain ⟨s, h3, rfl⟩ := Option.map_eq_some_iff.1 h2
          exact .add ha.1 ha.2 hb (by simpa using hr) h1 h3
      · cases h
    · cases h
  | emit k j it v =>
    simp only [step] at h; split at h
    · rename_i ha
      obtain ⟨p, h1, rfl⟩ := Option.map_eq_some_iff.1 h
      exact .emit ha.1 ha.2.1 ha.2.2 h1
    · cases h
  | wait k =>
    simp only [step] at h; split at h
    · rename_i ha
      obtain ⟨p, h1, rfl⟩ := Option.map_eq_some_iff.1 h
      split
      · rename_i q e es fl rest hc
        exact .pass ha hc h1
      · rename_i hc
        exact .pool ha (.inr ⟨rfl, fun q e es fl rest hh => hc q e es fl rest hh⟩) h1
    · cases h
  | endTxn k order =>
    simp only [step] at h; split at h
    · rename_i ha
      obtain ⟨p, h1, rfl⟩ := Option.map_eq_some_iff.1 h
      split
      · rename_i q cur fl rest hc
        exact .endTxn ha hc h1
      · rename_i hc
        simp only [Eos.step] at h1
        split at h1
        · rename_i q fl hh; exact absurd hh (hc _ _ _ _)
        · cases h1
    · cases h
  | pool k l =>
    simp only [step] at h; split at h
    · rename_i ha
      obtain ⟨p, h1, rfl⟩ := Option.map_eq_some_iff.1 h
      exact .pool ha.1 (.inl ha.2) h1
    · cases h

end Verif.Whole
