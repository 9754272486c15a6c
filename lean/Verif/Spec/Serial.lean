import Verif.Core.Apply

/-!
# Specification: one database, run by one thread

The committed entries are handed to a single database one after the other. Only client data that parses and is valid has an effect
on it. The interface of the database (`Core.Proto`) is shared with the model.
-/

namespace Svr.Spec
open Raft (Entry Inner)
open Core (Proto)
variable {D L E : Type}

/-- The client's request in an entry. -/
def request (pr : Proto D L E) (e : Entry) : Option L :=
  match e.inner with
  | .data b => (pr.parse b).filter pr.valid
  | _ => none

/-- `Serial pr d H d' rs`: running the entries `H` from the database `d` ends in `d'`, with responses `rs` (`none` for an entry that
is no client request). -/
inductive Serial (pr : Proto D L E) : D → List Entry → D → List (Option E) → Prop
  | done (d) : Serial pr d [] d []
  | skip (d e H d' rs) (h : request pr e = none) (k : Serial pr d H d' rs) : Serial pr d (e :: H) d' (none :: rs)
  | run (d e l d1 r H d' rs) (h : request pr e = some l) (hr : pr.run d l = .ok (d1, r)) (k : Serial pr d1 H d' rs) :
    Serial pr d (e :: H) d' (some r :: rs)

theorem Serial.length {pr : Proto D L E} {d d' : D} {H : List Entry} {rs : List (Option E)} (h : Serial pr d H d' rs) :
    rs.length = H.length := by
  induction h with
  | done => rfl
  | skip _ _ _ _ _ _ _ ih => simp [ih]
  | run _ _ _ _ _ _ _ _ _ _ _ ih => simp [ih]

/-- The database and the responses are functions of the entries. -/
theorem Serial.unique {pr : Proto D L E} {d d1 d2 : D} {H : List Entry} {r1 r2 : List (Option E)} (h : Serial pr d H d1 r1)
    (k : Serial pr d H d2 r2) : d1 = d2 ∧ r1 = r2 := by
  induction h generalizing d2 r2 with
  | done => cases k; exact ⟨rfl, rfl⟩
  | skip d e H d' rs h _ ih =>
    cases k with
    | skip _ _ _ _ _ _ k => obtain ⟨rfl, rfl⟩ := ih k; exact ⟨rfl, rfl⟩
    | run _ _ _ _ _ _ _ _ h' => rw [h] at h'; cases h'
  | run d e l d1 r H d' rs h hr _ ih =>
    cases k with
    | skip _ _ _ _ _ h' _ => rw [h] at h'; cases h'
    | run _ _ _ _ _ _ _ _ h' hr' k =>
      rw [h] at h'; cases h'
      rw [hr] at hr'; cases hr'
      obtain ⟨rfl, rfl⟩ := ih k; exact ⟨rfl, rfl⟩

theorem Serial.append {pr : Proto D L E} {d d1 d2 : D} {H K : List Entry} {r1 r2 : List (Option E)} (h : Serial pr d H d1 r1)
    (k : Serial pr d1 K d2 r2) : Serial pr d (H ++ K) d2 (r1 ++ r2) := by
  induction h with
  | done => exact k
  | skip d e H d' rs h _ ih => exact .skip _ _ _ _ _ h (ih k)
  | run d e l d1 r H d' rs h hr _ ih => exact .run _ _ _ _ _ _ _ _ h hr (ih k)

theorem Serial.split {pr : Proto D L E} {d d2 : D} {H K : List Entry} {rs : List (Option E)} (h : Serial pr d (H ++ K) d2 rs) :
    ∃ d1 r1 r2, Serial pr d H d1 r1 ∧ Serial pr d1 K d2 r2 ∧ rs = r1 ++ r2 := by
  induction H generalizing d rs with
  | nil => exact ⟨d, [], rs, .done d, h, rfl⟩
  | cons e H ih =>
    cases h with
    | skip _ _ _ _ rs h k =>
      obtain ⟨d1, r1, r2, h1, h2, rfl⟩ := ih k
      exact ⟨d1, none :: r1, r2, .skip _ _ _ _ _ h h1, h2, rfl⟩
    | run _ _ l d1 r _ _ rs h hr k =>
      obtain ⟨d1', r1, r2, h1, h2, rfl⟩ := ih k
      exact ⟨d1', some r :: r1, r2, .run _ _ _ _ _ _ _ _ h hr h1, h2, rfl⟩

end Svr.Spec
