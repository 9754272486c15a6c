import Verif.Raft.Solo

/-!
# A concrete surrounding for examples and counterexamples

The hash used here is a toy: it only has to return 32 bytes, and not to collide on the few inputs of the examples.
-/

namespace Svr.Raft.Node

def toyHash (k m : Bytes) : Bytes :=
  let f := fun (a : UInt8) (b : UInt8) => a * 31 + b + 7
  (k ++ m).foldl f 1 :: List.replicate 31 (m.foldl f 3 + k.foldl f 5)

/-- A length-prefixed serialization. -/
def toySer : List (Bytes × Bool) → Bytes
  | [] => []
  | (b, f) :: t => List.replicate b.length 1 ++ [0] ++ b ++ [if f then 1 else 0] ++ toySer t

def toy : Env Nat :=
  { hmac := toyHash, ser := toySer, pid := fun b => b.head?.map UInt8.toNat, z := ⟨1, 1, 1, 1, 1, fun _ => 1⟩,
    rand := fun n => n, path := fun _ => true }

def toyCfg : RaftCfg := ⟨10, 3, 1000, 100⟩

theorem replicate_zero_inj : ∀ {n m : Nat} {a b : Bytes}, List.replicate n 1 ++ (0 : UInt8) :: a = List.replicate m 1 ++ 0 :: b →
    n = m ∧ a = b
  | 0, 0, _, _, h => by simpa using h
  | 0, m + 1, _, _, h => by simp [List.replicate_succ] at h
  | n + 1, 0, _, _, h => by simp [List.replicate_succ] at h
  | n + 1, m + 1, a, b, h => by
    simp only [List.replicate_succ, List.cons_append, List.cons.injEq, true_and] at h
    obtain ⟨h1, h2⟩ := replicate_zero_inj h
    exact ⟨by omega, h2⟩

theorem toySer_inj : SerInj toy := by
  intro g
  show ∀ g', toySer g = toySer g' → g = g'
  induction g with
  | nil =>
    intro g' h
    cases g' with
    | nil => rfl
    | cons x t => obtain ⟨b, f⟩ := x; simp [toySer] at h
  | cons x t ih =>
    intro g' h
    cases g' with
    | nil => obtain ⟨b, f⟩ := x; simp [toySer] at h
    | cons y t' =>
      obtain ⟨b, f⟩ := x
      obtain ⟨b', f'⟩ := y
      simp only [toySer, List.append_assoc, List.singleton_append] at h
      obtain ⟨h1, h2⟩ := replicate_zero_inj h
      obtain ⟨h3, h4⟩ := List.append_inj h2 h1
      simp only [List.cons.injEq] at h4
      obtain ⟨h5, h6⟩ := h4
      have : f = f' := by revert h5; cases f <;> cases f' <;> decide
      rw [h3, this, ih t' h6]

/-- Several calls. -/
def runOps {P : Type} [LinearOrder P] (v : Env P) : List (Op P) → Node P → Out (Node P × List (Op P × Obs P))
  | [], s => .ok (s, [])
  | op :: t, s => do
    let (s1, o) ← op.run v s
    let (s2, l) ← runOps v t s1
    .ok (s2, (op, o) :: l)

/-- `Op.Fits` as a test. -/
def Op.fits {P : Type} [LinearOrder P] (s : Node P) : Op P → Bool
  | .receive _ m => decide (s.log.lastIdx + Msg.entryCount m + 3 < SZ) && decide (s.term + 1 < SZ) && decide (m.term + 1 < SZ) &&
      (match m.body with
        | .appReq _ _ _ es _ _ => es.all (fun e => decide (e.term < SZ))
        | _ => true)
  | _ => decide (s.log.lastIdx + 3 < SZ) && decide (s.term + 1 < SZ)

theorem Op.fits_iff {P : Type} [LinearOrder P] {s : Node P} {op : Op P} (h : op.fits s = true) : op.Fits s := by
  cases op with
  | receive frm m =>
    simp only [Op.fits, Bool.and_eq_true, decide_eq_true_eq] at h
    obtain ⟨⟨⟨h1, h2⟩, h3⟩, h4⟩ := h
    refine ⟨h1, h2, h3, by omega, ?_⟩
    cases hb : m.body with
    | appReq a b c es d e =>
      rw [hb] at h4
      simpa using h4
    | _ => trivial
  | _ =>
    simp only [Op.fits, Bool.and_eq_true, decide_eq_true_eq] at h
    exact h

/-- All calls of a run fit. -/
def fitsAll {P : Type} [LinearOrder P] (v : Env P) : List (Op P) → Node P → Bool
  | [], _ => true
  | op :: t, s => op.fits s && match op.run v s with
    | .ok (s1, _) => fitsAll v t s1
    | _ => false

theorem Run.cons {P : Type} [LinearOrder P] {v : Env P} {s s1 s2 : Node P} {op : Op P} {o : Obs P} {tr : List (Op P × Obs P)}
    (hf : op.Fits s) (h : op.run v s = .ok (s1, o)) (k : Run v s1 tr s2) : Run v s ((op, o) :: tr) s2 :=
  Run.append ((Run.nil s).snoc hf h) k

theorem runOps_run {P : Type} [LinearOrder P] {v : Env P} : ∀ {ops : List (Op P)} {s s' : Node P} {tr : List (Op P × Obs P)},
    fitsAll v ops s = true → runOps v ops s = .ok (s', tr) → Run v s tr s'
  | [], s, s', tr, _, h => by
    simp only [runOps, Out.ok.injEq, Prod.mk.injEq] at h
    obtain ⟨rfl, rfl⟩ := h
    exact Run.nil s
  | op :: t, s, s', tr, hf, h => by
    simp only [runOps] at h
    obtain ⟨⟨s1, o⟩, h1, h⟩ := Out.bind_eq_ok.mp h
    obtain ⟨⟨s2, l⟩, h2, h⟩ := Out.bind_eq_ok.mp h
    simp only [Out.ok.injEq, Prod.mk.injEq] at h
    obtain ⟨rfl, rfl⟩ := h
    simp only [fitsAll, h1, Bool.and_eq_true] at hf
    exact Run.cons (Op.fits_iff hf.1) h1 (runOps_run hf.2 h2)

end Svr.Raft.Node
