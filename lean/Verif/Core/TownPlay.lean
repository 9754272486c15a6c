import Verif.Core.Members
import Verif.Core.Play

/-!
# Playing a schedule with membership requests, for examples
-/

namespace Svr.Core.Play
open Raft Raft.Node Raft.Play
variable {D L E : Type}

structure TTab (D E : Type) where
  X : GTab D E
  mail : List (Nat × Nat × Kind)

def TTab.none : TTab D E := ⟨GTab.none, []⟩
def TTab.town (Y : TTab D E) : Town Nat D E := ⟨Y.X.grid, Y.mail⟩

inductive TAct
  | act (a : Act)
  | send (p dst : Nat) (k : Kind)
  | serve (frm p : Nat) (k : Kind)
  | rejoin (p q : Nat)

instance (s : Node Nat) (a : Side D E) (dst : Nat) (k : Kind) : Decidable (MaySend s a dst k) := by
  cases k <;> unfold MaySend <;> infer_instance

def tstep (c : Site Nat D L E) (cfg : RaftCfg) (Y : TTab D E) : TAct → Option (TTab D E)
  | .act a => match gstep c cfg Y.X a with
    | some X => if memberships X.T.asked = memberships Y.X.T.asked then some ⟨X, Y.mail⟩ else none
    | none => none
  | .send p dst k => match look p Y.X.T.rows, lookS p Y.X.sides with
    | some (s, _), some a => if MaySend s a dst k then some ⟨Y.X, Y.mail ++ [(p, dst, k)]⟩ else none
    | _, _ => none
  | .serve frm p k => match look p Y.X.T.rows, lookS p Y.X.sides with
    | some (s, A), some a => if (frm, p, k) ∈ Y.mail ∧ a.member = true then
        match nextGroup c.str s.membership frm k with
        | some g => if (Op.request (.membership g) : Op Nat).fits s then
            match (Op.request (.membership g) : Op Nat).run c.raft.v s with
            | .ok (s', o) => some ⟨⟨⟨place p (s', A ++ Obs.entries o) Y.X.T.rows, Y.X.T.net ++ Obs.messages p o,
                Y.X.T.asked ++ [.membership g]⟩, Y.X.sides, Y.X.out⟩, Y.mail⟩
            | _ => none
          else none
        | none => none
      else none
    | _, _ => none
  | .rejoin p q => match look p Y.X.T.rows, lookS p Y.X.sides, look q Y.X.T.rows, lookS q Y.X.sides with
    | some _, some b, some (sq, A), some a =>
      if b.member = false ∧ p ≠ q ∧ sq.lastApplied = sq.commit ∧ a.member = true ∧ A.length + 2 < SZ then
        match Node.new c.raft.v c.raft.group p sq.mem (loaded c.raft.v.z A) cfg true c.raft.sm with
        | .ok s => some ⟨⟨⟨place p (s, A) Y.X.T.rows, Y.X.T.net, Y.X.T.asked⟩,
            placeS p (Side.promote a.db a.limits (loaded c.raft.v.z A).lastIdx) Y.X.sides, Y.X.out⟩, Y.mail⟩
        | _ => none
      else none
    | _, _, _, _ => none

def tplay (c : Site Nat D L E) (cfg : RaftCfg) : List TAct → TTab D E → Option (TTab D E)
  | [], Y => some Y
  | a :: t, Y => match tstep c cfg Y a with
    | some Y' => tplay c cfg t Y'
    | none => none

theorem tstep_next {c : Site Nat D L E} {cfg : RaftCfg} {Y Y' : TTab D E} {a : TAct} {again : Bool}
    (hc : again = true ∨ ∀ p q, a ≠ .rejoin p q) (h : tstep c cfg Y a = some Y') : TNext c again Y.town Y'.town := by
  cases a with
  | act a =>
    simp only [tstep] at h
    split at h
    · rename_i X hX
      split at h
      · rename_i hq
        cases h
        exact .step _ (gstep_next hX) hq
      · cases h
    · cases h
  | send p dst k =>
    simp only [tstep] at h
    split at h
    · rename_i s _ a hs ha
      split at h
      · rename_i hm
        cases h
        exact .send p dst s a k (by simp [TTab.town, GTab.grid, Table.world, hs]) ha hm
      · cases h
    · cases h
  | serve frm p k =>
    simp only [tstep] at h
    split at h
    · rename_i s A a hs ha
      split at h
      · rename_i hm
        split at h
        · rename_i g hg
          split at h
          · rename_i hf
            split at h
            · rename_i s' o hr
              cases h
              unfold TTab.town GTab.grid
              simp only [put_world]
              have hA : Y.X.T.world.applied p = A := by simp [Table.world, hs, appliedOf]
              rw [← hA]
              exact .serve (X := Y.town) frm p k s s' a g o c.raft.v.rand c.raft.v.path hm.1
                (by simp [TTab.town, GTab.grid, Table.world, hs]) ha hm.2 hg (Op.fits_iff hf) hr
            · cases h
          · cases h
        · cases h
      · cases h
    · cases h
  | rejoin p q =>
    simp only [tstep] at h
    split at h
    · rename_i so b sq A a hp hb hq ha
      split at h
      · rename_i hcs
        obtain ⟨c1, c2, c3, c4, c5⟩ := hcs
        split at h
        · rename_i s hn
          cases h
          have := put_world Y.X.T p s A [] []
          rw [List.append_nil, List.append_nil] at this
          unfold TTab.town GTab.grid
          simp only [this, sides_set]
          have hA : Y.X.T.world.applied q = A := by simp [Table.world, hq, appliedOf]
          rw [← hA]
          exact .rejoin (X := Y.town) p q s so.1 sq a b c.raft.v.rand c.raft.v.path (loaded c.raft.v.z (Y.X.T.world.applied q)) cfg
            (hc.elim id fun k => absurd rfl (k p q))
            (by simp [TTab.town, GTab.grid, Table.world, hp]) hb c1 c2 (by simp [TTab.town, GTab.grid, Table.world, hq]) ha c3 c4
            (logOf_loaded _ _) le_rfl (by show (Y.X.T.world.applied q).length + 2 < SZ; rw [hA]; exact c5) (by rw [hA]; exact hn)
        · cases h
      · cases h
    · cases h

def isRejoin : TAct → Bool
  | .rejoin _ _ => true
  | _ => false

theorem tplay_reach {c : Site Nat D L E} {cfg : RaftCfg} {again : Bool} : ∀ {as : List TAct} {Y Y' : TTab D E},
    (again = true ∨ as.any isRejoin = false) → tplay c cfg as Y = some Y' → TReach c again Y.town → TReach c again Y'.town
  | [], Y, Y', _, h, hr => by cases h; exact hr
  | a :: t, Y, Y', hc, h, hr => by
    simp only [tplay] at h
    split at h
    · rename_i Y1 h1
      refine tplay_reach (hc.imp id fun k => ?_) h (hr.next (tstep_next (hc.imp id fun k => ?_) h1))
      · rw [List.any_cons, Bool.or_eq_false_iff] at k; exact k.2
      · rw [List.any_cons, Bool.or_eq_false_iff] at k
        rintro p q rfl
        exact absurd k.1 (by simp [isRejoin])
    · cases h

end Svr.Core.Play
