import Verif.Core.Grid
import Verif.Raft.Play

/-!
# Playing a schedule of a group of enclaves, for examples
-/

namespace Svr.Core.Play
open Raft Raft.Node Raft.Play
variable {D L E : Type}

def lookS (p : Nat) : List (Nat × Side D E) → Option (Side D E)
  | [] => none
  | (q, r) :: t => if p = q then some r else lookS p t

def placeS (p : Nat) (r : Side D E) (l : List (Nat × Side D E)) : List (Nat × Side D E) := (p, r) :: l.filter (fun x => x.1 ≠ p)

theorem lookS_placeS (p x : Nat) (r : Side D E) (l : List (Nat × Side D E)) :
    lookS x (placeS p r l) = if x = p then some r else lookS x l := by
  unfold placeS
  simp only [lookS]
  by_cases h : x = p
  · rw [if_pos h, if_pos h]
  · rw [if_neg h, if_neg h]
    induction l with
    | nil => rfl
    | cons y t ih =>
      obtain ⟨q, s⟩ := y
      by_cases hq : q = p
      · subst hq
        simp only [ne_eq, not_true, decide_false, Bool.false_eq_true, not_false_eq_true, List.filter_cons_of_neg]
        rw [ih]; simp [lookS, h]
      · rw [List.filter_cons_of_pos (by simpa using hq)]
        simp only [lookS, ih]

structure GTab (D E : Type) where
  T : Table
  sides : List (Nat × Side D E)
  out : List (Nat × Nat × Option E)

def GTab.none : GTab D E := ⟨Table.none, [], []⟩

def GTab.grid (X : GTab D E) : Grid Nat D E := ⟨X.T.world, fun p => lookS p X.sides, X.out⟩

/-- One turn of the loop over committed entries at `p`. -/
def commitStep (c : Site Nat D L E) (X : GTab D E) (p : Nat) : Option (GTab D E) :=
  match look p X.T.rows, lookS p X.sides with
  | some (s, A), some a => if (Op.takeCommitted : Op Nat).fits s then
      match s.takeCommittedLog with
      | .ok (s', some (i, e)) =>
        match a.take c.pr c.pm (c.str p) true i e with
        | .ok a' => some ⟨⟨place p (s', A ++ [e]) X.T.rows, X.T.net, X.T.asked⟩, placeS p a' X.sides,
            X.out ++ (a'.effects.drop a.effects.length).map (fun x => (p, x))⟩
        | _ => none
      | _ => none
    else none
  | _, _ => none

def isTake : Op Nat → Bool
  | .takeCommitted => true
  | _ => false

def gstep (c : Site Nat D L E) (cfg : RaftCfg) (X : GTab D E) : Act → Option (GTab D E)
  | .start p => (step c.raft cfg X.T (.start p)).map fun T => ⟨T, placeS p (Side.create c.pr) X.sides, X.out⟩
  | .startIn p max => (step c.raft cfg X.T (.startIn p max)).map fun T => ⟨T, placeS p (Side.create c.pr) X.sides, X.out⟩
  | .call p op => if isTake op then commitStep c X p
    else (step c.raft cfg X.T (.call p op)).map fun T => ⟨T, X.sides, X.out⟩
  | .join p q => match look q X.T.rows, lookS q X.sides with
    | some (_, A), some a => (step c.raft cfg X.T (.join p q)).map fun T =>
        ⟨T, placeS p (Side.promote a.db a.limits (loaded c.raft.v.z A).lastIdx) X.sides, X.out⟩
    | _, _ => none
  | .give p k => (step c.raft cfg X.T (.give p k)).map fun T => ⟨T, X.sides, X.out⟩

def gplay (c : Site Nat D L E) (cfg : RaftCfg) : List Act → GTab D E → Option (GTab D E)
  | [], X => some X
  | a :: t, X => match gstep c cfg X a with
    | some X' => gplay c cfg t X'
    | none => none

theorem sides_set (X : GTab D E) (p : Nat) (a : Side D E) : (fun x => lookS x (placeS p a X.sides)) = setSide (fun x => lookS x X.sides) p a := by
  funext x; rw [lookS_placeS]; rfl

theorem callStep_gnext {c : Site Nat D L E} {X : GTab D E} {T' : Table} {p : Nat} {op : Op Nat} (hd : Op.Delivered X.T.world p op)
    (hne : op ≠ .takeCommitted) (h : callStep c.raft X.T p op = some T') : GNext c X.grid (⟨T', X.sides, X.out⟩ : GTab D E).grid := by
  unfold callStep at h
  split at h
  · cases h
  · rename_i s A hl
    split at h
    · rename_i hf
      split at h
      · rename_i s' o hr
        cases h
        unfold GTab.grid
        simp only [put_world]
        have hA : X.T.world.applied p = A := by simp [Table.world, hl, appliedOf]
        rw [← hA]
        exact .call (G := X.grid) p s s' op o c.raft.v.rand c.raft.v.path (by simp [GTab.grid, Table.world, hl]) hd (Op.fits_iff hf) hr hne
      · cases h
    · cases h

theorem gstep_next {c : Site Nat D L E} {cfg : RaftCfg} {X X' : GTab D E} {a : Act} (h : gstep c cfg X a = some X') :
    GNext c X.grid X'.grid := by
  cases a with
  | start p =>
    simp only [gstep, Option.map_eq_some_iff] at h
    obtain ⟨T, h, rfl⟩ := h
    simp only [step] at h
    split at h
    · cases h
    · rename_i hl
      split at h
      · rename_i s hn
        cases h
        have := put_world X.T p s [] [] []
        rw [List.append_nil, List.append_nil] at this
        unfold GTab.grid
        simp only [this, sides_set]
        exact .start (G := X.grid) p s c.raft.v.rand c.raft.v.path 10000 cfg (by simp [GTab.grid, Table.world, hl]) hn
      · cases h
  | startIn p max =>
    simp only [gstep, Option.map_eq_some_iff] at h
    obtain ⟨T, h, rfl⟩ := h
    simp only [step] at h
    split at h
    · cases h
    · rename_i hl
      split at h
      · rename_i s hn
        cases h
        have := put_world X.T p s [] [] []
        rw [List.append_nil, List.append_nil] at this
        unfold GTab.grid
        simp only [this, sides_set]
        exact .start (G := X.grid) p s c.raft.v.rand c.raft.v.path max cfg (by simp [GTab.grid, Table.world, hl]) hn
      · cases h
  | join p q =>
    simp only [gstep] at h
    split at h
    · rename_i sq' A' a hq' ha
      simp only [Option.map_eq_some_iff] at h
      obtain ⟨T, h, rfl⟩ := h
      simp only [step] at h
      split at h
      · rename_i sq A hl hq
        rw [hq'] at hq; cases hq
        split at h
        · rename_i hc
          split at h
          · rename_i s hn
            cases h
            have := put_world X.T p s A' [] []
            rw [List.append_nil, List.append_nil] at this
            unfold GTab.grid
            simp only [this, sides_set]
            have hA : X.T.world.applied q = A' := by simp [Table.world, hq', appliedOf]
            rw [← hA]
            exact .join (G := X.grid) p q s sq' a c.raft.v.rand c.raft.v.path (loaded c.raft.v.z (X.T.world.applied q)) cfg
              (by simp [GTab.grid, Table.world, hl]) (by simp [GTab.grid, Table.world, hq']) ha hc.1
              (logOf_loaded _ _) le_rfl (by show (X.T.world.applied q).length + 2 < SZ; rw [hA]; exact hc.2) (by rw [hA]; exact hn)
          · cases h
        · cases h
      · cases h
    · cases h
  | call p op =>
    simp only [gstep] at h
    split at h
    · unfold commitStep at h
      split at h
      · rename_i s A a hl ha
        split at h
        · rename_i hf
          split at h
          · rename_i s' i e hc
            split at h
            · rename_i a' ht
              cases h
              have := put_world X.T p s' (A ++ [e]) [] []
              rw [List.append_nil, List.append_nil] at this
              unfold GTab.grid
              simp only [this, sides_set]
              have hA : X.T.world.applied p = A := by simp [Table.world, hl, appliedOf]
              rw [← hA]
              exact .commit (G := X.grid) p s s' a a' i e true (by simp [GTab.grid, Table.world, hl]) ha (Op.fits_iff hf) hc ht
            · cases h
          · cases h
        · cases h
      · cases h
    · rename_i hne
      simp only [Option.map_eq_some_iff] at h
      obtain ⟨T, h, rfl⟩ := h
      simp only [step] at h
      split at h
      · cases h
      · rename_i hr
        refine callStep_gnext (op := op) (p := p) ?_ ?_ h
        · cases op with
          | receive => exact absurd rfl hr
          | _ => trivial
        · rintro rfl; exact hne rfl
  | give p k =>
    simp only [gstep, Option.map_eq_some_iff] at h
    obtain ⟨T, h, rfl⟩ := h
    simp only [step] at h
    split at h
    · rename_i frm dst m hk
      split at h
      · rename_i hd
        exact callStep_gnext (op := .receive frm m) (p := p) ⟨dst, List.mem_of_getElem? hk, hd⟩ (by simp) h
      · cases h
    · cases h

theorem gplay_future {c : Site Nat D L E} {cfg : RaftCfg} : ∀ {as : List Act} {X X' : GTab D E}, gplay c cfg as X = some X' →
    ∀ {G : Grid Nat D E}, GFuture c G X.grid → GFuture c G X'.grid
  | [], X, X', h, G, hf => by cases h; exact hf
  | a :: t, X, X', h, G, hf => by
    simp only [gplay] at h
    split at h
    · rename_i X1 h1
      exact gplay_future h (hf.next (gstep_next h1))
    · cases h

theorem gplay_reachable {c : Site Nat D L E} {cfg : RaftCfg} {as : List Act} {X : GTab D E} (h : gplay c cfg as GTab.none = some X) :
    GReachable c X.grid := gplay_future h GFuture.now

end Svr.Core.Play
