import Verif.Raft.Cluster
import Verif.Raft.Toy

/-!
# Playing a schedule of a group, for examples and counterexamples
-/

namespace Svr.Raft.Play
open Node

/-- A world with finitely many replicas. -/
structure Table where
  rows : List (Nat × Node Nat × List Entry)
  net : List (Nat × Option Nat × Msg)
  asked : List Inner

def look (p : Nat) : List (Nat × Node Nat × List Entry) → Option (Node Nat × List Entry)
  | [] => none
  | (q, r) :: t => if p = q then some r else look p t

def place (p : Nat) (r : Node Nat × List Entry) : List (Nat × Node Nat × List Entry) → List (Nat × Node Nat × List Entry)
  | [] => [(p, r)]
  | (q, x) :: t => if p = q then (p, r) :: t else (q, x) :: place p r t

theorem look_place (p x : Nat) (r : Node Nat × List Entry) : ∀ l, look x (place p r l) = if x = p then some r else look x l
  | [] => by simp [place, look]
  | (q, y) :: t => by
    unfold place
    by_cases h : p = q
    · subst h
      rw [if_pos rfl]
      simp only [look]
      by_cases hx : x = p <;> simp [hx]
    · rw [if_neg h]
      simp only [look]
      by_cases hx : x = q
      · have : x ≠ p := fun e => h (e ▸ hx)
        rw [if_pos hx, if_pos hx, if_neg this]
      · simp [hx, look_place p x r t]

def appliedOf : Option (Node Nat × List Entry) → List Entry
  | some x => x.2
  | none => []

def Table.world (T : Table) : World Nat :=
  ⟨fun p => (look p T.rows).map Prod.fst, fun p => appliedOf (look p T.rows), T.net, T.asked⟩

inductive Act
  | start (p : Nat)
  /-- start `p` with a log of at most `max` bytes -/
  | startIn (p max : Nat)
  | call (p : Nat) (op : Op Nat)
  /-- `p` joins with what `q` applied -/
  | join (p q : Nat)
  /-- give `p` the message number `k` of those sent so far -/
  | give (p k : Nat)

/-- The call `op` on `p`. -/
def callStep (g : Setting Nat) (T : Table) (p : Nat) (op : Op Nat) : Option Table :=
  match look p T.rows with
  | none => none
  | some (s, A) => if op.fits s then
      match op.run g.v s with
      | .ok (s', o) => some ⟨place p (s', A ++ Obs.entries o) T.rows, T.net ++ Obs.messages p o, T.asked ++ Op.requests op⟩
      | _ => none
    else none

def isReceive : Op Nat → Bool
  | .receive _ _ => true
  | _ => false

/-- A log with the entries `A`. -/
def loaded (z : Sizes) (A : List Entry) : Log := { Log.new 10000 with entries := A, curr := Log.bytesOf z A }

theorem logOf_loaded (z : Sizes) (A : List Entry) : LogOf (loaded z A) A :=
  ⟨by simp [loaded, Log.new], by simp [loaded, Log.new], by simp [loaded, Log.new], by simp [loaded, Log.new]⟩

def step (g : Setting Nat) (cfg : RaftCfg) (T : Table) : Act → Option Table
  | .start p => match look p T.rows with
    | some _ => none
    | none => match Node.new g.v g.group p g.m0 (Log.new 10000) cfg false g.sm with
      | .ok s => some ⟨place p (s, []) T.rows, T.net, T.asked⟩
      | _ => none
  | .startIn p max => match look p T.rows with
    | some _ => none
    | none => match Node.new g.v g.group p g.m0 (Log.new max) cfg false g.sm with
      | .ok s => some ⟨place p (s, []) T.rows, T.net, T.asked⟩
      | _ => none
  | .call p op => if isReceive op then none else callStep g T p op
  | .join p q => match look p T.rows, look q T.rows with
    | none, some (sq, A) => if sq.lastApplied = sq.commit ∧ A.length + 2 < SZ then
        match Node.new g.v g.group p sq.mem (loaded g.v.z A) cfg true g.sm with
        | .ok s => some ⟨place p (s, A) T.rows, T.net, T.asked⟩
        | _ => none
      else none
    | _, _ => none
  | .give p k => match T.net[k]? with
    | some (frm, dst, m) => if dst = none ∨ dst = some p then callStep g T p (.receive frm m) else none
    | none => none

def play (g : Setting Nat) (cfg : RaftCfg) : List Act → Table → Option Table
  | [], T => some T
  | a :: t, T => match step g cfg T a with
    | some T' => play g cfg t T'
    | none => none

theorem env_self (g : Setting Nat) : g.env g.v.rand g.v.path = g.v := rfl

theorem put_world (T : Table) (p : Nat) (s : Node Nat) (A : List Entry) (N : List (Nat × Option Nat × Msg)) (Q : List Inner) :
    (⟨place p (s, A) T.rows, T.net ++ N, T.asked ++ Q⟩ : Table).world = T.world.put p s A N Q := by
  unfold Table.world World.put
  congr 1
  · funext x
    simp only [look_place]
    split <;> rfl
  · funext x
    simp only [look_place]
    split <;> rfl

theorem callStep_next {g : Setting Nat} {T T' : Table} {p : Nat} {op : Op Nat} (hd : Op.Delivered T.world p op)
    (h : callStep g T p op = some T') : Next g T.world T'.world := by
  unfold callStep at h
  split at h
  · cases h
  · rename_i s A hl
    split at h
    · rename_i hf
      split at h
      · rename_i s' o hr
        cases h
        rw [put_world]
        have hA : T.world.applied p = A := by simp [Table.world, hl, appliedOf]
        rw [← hA]
        exact .call p s s' op o g.v.rand g.v.path (by simp [Table.world, hl]) hd (Op.fits_iff hf) hr
      · cases h
    · cases h

theorem step_next {g : Setting Nat} {cfg : RaftCfg} {T T' : Table} {a : Act} (h : step g cfg T a = some T') : Next g T.world T'.world := by
  cases a with
  | start p =>
    simp only [step] at h
    split at h
    · cases h
    · rename_i hl
      split at h
      · rename_i s hn
        cases h
        have := put_world T p s [] [] []
        rw [List.append_nil, List.append_nil] at this
        rw [this]
        exact .start p s g.v.rand g.v.path 10000 cfg (by simp [Table.world, hl]) hn
      · cases h
  | startIn p max =>
    simp only [step] at h
    split at h
    · cases h
    · rename_i hl
      split at h
      · rename_i s hn
        cases h
        have := put_world T p s [] [] []
        rw [List.append_nil, List.append_nil] at this
        rw [this]
        exact .start p s g.v.rand g.v.path max cfg (by simp [Table.world, hl]) hn
      · cases h
  | join p q =>
    simp only [step] at h
    split at h
    · rename_i sq A hl hq
      split at h
      · rename_i hc
        split at h
        · rename_i s hn
          cases h
          have := put_world T p s A [] []
          rw [List.append_nil, List.append_nil] at this
          rw [this]
          have hA : T.world.applied q = A := by simp [Table.world, hq, appliedOf]
          rw [← hA]
          exact .join p q s sq g.v.rand g.v.path (loaded g.v.z A) cfg (by simp [Table.world, hl]) (by simp [Table.world, hq]) hc.1
            (by rw [hA]; exact logOf_loaded _ _) le_rfl (by rw [hA]; exact hc.2) hn
        · cases h
      · cases h
    · cases h
  | call p op =>
    simp only [step] at h
    split at h
    · cases h
    · rename_i hr
      refine callStep_next ?_ h
      cases op with
      | receive => exact absurd rfl hr
      | _ => trivial
  | give p k =>
    simp only [step] at h
    split at h
    · rename_i frm dst m hk
      split at h
      · rename_i hd
        exact callStep_next (op := .receive frm m) (p := p) ⟨dst, List.mem_of_getElem? hk, hd⟩ h
      · cases h
    · cases h

theorem play_future {g : Setting Nat} {cfg : RaftCfg} : ∀ {as : List Act} {T T' : Table}, play g cfg as T = some T' →
    ∀ {W : World Nat}, Future g W T.world → Future g W T'.world
  | [], T, T', h, W, hf => by cases h; exact hf
  | a :: t, T, T', h, W, hf => by
    simp only [play] at h
    split at h
    · rename_i T1 h1
      exact play_future h (hf.next (step_next h1))
    · cases h

def Table.none : Table := ⟨[], [], []⟩

theorem play_reachable {g : Setting Nat} {cfg : RaftCfg} {as : List Act} {T : Table} (h : play g cfg as Table.none = some T) :
    Reachable g T.world := play_future h Future.now

end Svr.Raft.Play
