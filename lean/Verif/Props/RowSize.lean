import Verif.RowSize
import Verif.DB2Rows
import Verif.DB3Rows
import Verif.DB4Load
import Verif.DB5Rows
import Verif.Props.DB2Rows
import Verif.Props.DB3
import Verif.Props.DB4
import Verif.Props.DB5

/-!
# C19: advertised maximum row size

`MaxRowSerializedSize` is used to decide how many rows fit in a replication chunk (core.cc:1299-1301).
It bounds the rows of SVR5 only. For SVR2, SVR3 and SVR4 the theorems give the true maximum and a
reachable row exceeding the advertised one.
-/

namespace Svr.Props.RowSize
open Svr.RowSize

/-- **C19 (SVR5)**: every row streamed by a reachable SVR5 database encodes to at most
`MaxRowSerializedSize` bytes. -/
theorem C19_db5_row_size (P : DB5.Prims5) (db : DB5.DB) (h : DB5.Reach P db) (c : Bytes) (n : Nat) (k : Bytes)
    (rows : List DB5.RowPB) (he : DB5.rowsAsProtos db c n = .ok (k, rows)) :
    ∀ x ∈ rows, (enc5 x).length ≤ max5 := by
  have hi := DB5.reach_inv h
  have key : ∀ p ∈ db.list, (enc5 (DB5.rowToPB p.1 p.2)).length ≤ max5 := by
    rintro ⟨id, r⟩ hp
    have hr := hi id r (OMap.mem_list.mp hp)
    have h1 := fBytes_len (tag := 0x0a) (b := id) (Nat.le_of_eq hr.id_len) (by omega)
    have h2 := fBytes_len (tag := 0x12) (b := r.data) (Nat.le_of_eq hr.data_len) (by omega)
    have : max5 = 52 := rfl
    simp only [enc5, DB5.rowToPB, List.length_append]
    omega
  intro x hx
  unfold DB5.rowsAsProtos at he
  split at he
  · simp only [Except.ok.injEq, Prod.mk.injEq] at he
    rw [← he.2, List.mem_map] at hx
    obtain ⟨p, hp, rfl⟩ := hx
    exact key p (List.mem_of_mem_take hp)
  · split at he
    · simp at he
    · simp only [Except.ok.injEq, Prod.mk.injEq] at he
      rw [← he.2, List.mem_map] at hx
      obtain ⟨p, hp, rfl⟩ := hx
      exact key p ((List.dropWhile_sublist _).subset (List.mem_of_mem_take hp))

/-- **C19 (SVR2)**, true bound: two bytes more than advertised, because the `state` field is not counted.
(`state` is one of the three named values; rows from a peer could carry other numbers.) -/
theorem C19_db2_row_size_partial (P : Prims) (db : DB2.DB) (h : DB2.Reach P db) (id : Bytes) (r : DB2.Row)
    (hr : db.find id = some r) (hst : r.state.toNat ≤ 2) : (enc2 (DB2.rowToPB id r)).length ≤ max2 + 2 := by
  have hr := DB2.reach_inv h id r hr
  have h1 := fBytes_len (tag := 0x0a) (b := id) (Nat.le_of_eq hr.id_len) (by omega)
  have ht : r.tries.toUInt32.toNat < 16384 := by
    have := r.tries.toNat_lt
    simp only [UInt8.toNat_toUInt32]
    omega
  have h2 := fVarint_len (tag := 0x10) ht
  have h3 := fBytes_len (tag := 0x1a) (b := r.data.take r.dataSize.toNat) (n := 48)
    (by rw [List.length_take]; have := hr.size_le; omega) (by omega)
  have h4 := fBytes_len (tag := 0x22) (b := r.pin) (Nat.le_of_eq hr.pin_len) (by omega)
  have h5 : (fEnum 0x28 r.state).length ≤ 2 := by
    unfold fEnum
    exact fVarint_small (by split <;> omega)
  have : max2 = 105 := rfl
  simp only [enc2, DB2.rowToPB, List.length_append]
  omega

/-- **C19 (SVR3)**, true bound: one byte more than advertised (tries of 128 or more). -/
theorem C19_db3_row_size_partial (P : DB3.Prims3) (db : DB3.DB) (h : DB3.Reach P db) (id : Bytes) (r : DB3.Row)
    (hr : db.find id = some r) :
    (enc3 (DB3.rowToPB id r)).length ≤ max3 + 1 ∧ (r.tries.toNat < 128 → (enc3 (DB3.rowToPB id r)).length ≤ max3) := by
  have hr := DB3.reach_inv h id r hr
  have h1 := fBytes_len (tag := 0x0a) (b := id) (Nat.le_of_eq hr.id_len) (by omega)
  have h2 := fBytes_len (tag := 0x12) (b := r.priv) (Nat.le_of_eq hr.priv_len) (by omega)
  have he : r.tries.toUInt32.toNat = r.tries.toNat := by simp
  have ht := r.tries.toNat_lt
  have h3 := fVarint_len (tag := 0x18) (n := r.tries.toUInt32.toNat) (by omega)
  have : max3 = 54 := rfl
  simp only [enc3, DB3.rowToPB, List.length_append]
  refine ⟨by omega, fun h4 => ?_⟩
  have h5 := fVarint_small (tag := 0x18) (n := r.tries.toUInt32.toNat) (by omega)
  omega

/-- **C19 (SVR4)**, true bound: nine bytes more than advertised (tries of 128 or more; versions are
`fixed64`, not `fixed32`). -/
theorem C19_db4_row_size_partial (P : DB4.Prims4) (hs : DB4.SaddOK P) (db : DB4.DB) (h : DB4.Reach P db) (id : Bytes)
    (r : DB4.Row) (hr : db.rows.find id = some r) :
    (enc4 (DB4.rowToPB id (r, db.rot.find id))).length ≤ max4 + 9 := by
  have hi := DB4.reach_inv hs h
  have hro := DB4.inv_row hi hr
  have h1 := fBytes_len (tag := 0x0a) (b := id) (Nat.le_of_eq hro.id_len) (by omega)
  have he : r.tries.toUInt32.toNat = r.tries.toNat := by simp
  have ht := r.tries.toNat_lt
  have h2 := fVarint_len (tag := 0x10) (n := r.tries.toUInt32.toNat) (by omega)
  have h3 := fBytes_len (tag := 0x1a) (b := r.oprf) (Nat.le_of_eq (DB4.okScalar_len hro.oprf_ok)) (by omega)
  have h4 := fBytes_len (tag := 0x22) (b := r.auth) (Nat.le_of_eq (DB4.okPoint_len hro.auth_ok)) (by omega)
  have h5 := fBytes_len (tag := 0x2a) (b := r.enc) (Nat.le_of_eq hro.enc_len) (by omega)
  have h6 := fBytes_len (tag := 0x32) (b := r.zero) (Nat.le_of_eq (DB4.okScalar_len hro.zero_ok)) (by omega)
  have h9 := fFixed64_len (tag := 0x49) (n := r.version.toUInt64)
  have : max4 = 234 := rfl
  cases hx : db.rot.find id with
  | none =>
    simp only [enc4, DB4.rowToPB, List.length_append]
    have e1 : (fBytes 0x3a []).length = 0 := rfl
    have e2 : (fBytes 0x42 []).length = 0 := rfl
    have e3 : (fFixed64 0x51 0).length = 0 := rfl
    omega
  | some x =>
    have hxo := (DB4.inv_rot hi hx).1
    have h7 := fBytes_len (tag := 0x3a) (b := x.oprfDelta) (Nat.le_of_eq (DB4.okScalar_len hxo.delta_ok)) (by omega)
    have h8 := fBytes_len (tag := 0x42) (b := x.encDelta) (Nat.le_of_eq hxo.enc_len) (by omega)
    have h10 := fFixed64_len (tag := 0x51) (n := x.newVersion.toUInt64)
    simp only [enc4, DB4.rowToPB, List.length_append]
    omega

/-- **C19 (SVR2)**, negation: a reachable row of 107 bytes. -/
theorem C19_db2_exceeds : ∃ db id r, DB2.Reach DB2Rows.P0 db ∧ OMap.find db id = some r ∧
    (enc2 (DB2.rowToPB id r)).length = 107 ∧ max2 = 105 := by
  let l : DB2.Log := ⟨DB2Rows.ida, .backup (List.replicate 48 1) DB2Rows.pinA 255⟩
  have e : ∃ db r, DB2.runEvs DB2Rows.P0 DB2.empty [.entry (fun _ => true) l] = .ok db ∧
      OMap.find db DB2Rows.ida = some r ∧ (enc2 (DB2.rowToPB DB2Rows.ida r)).length = 107 := ⟨_, _, rfl, rfl, by decide⟩
  obtain ⟨db, r, h1, h2, h3⟩ := e
  refine ⟨db, _, r, ⟨_, ?_, h1⟩, h2, h3, rfl⟩
  intro e he
  simp only [List.mem_singleton] at he
  subst he
  show DB2.validate _ = none
  decide

/-- **C19 (SVR3)**, negation: a reachable row of 55 bytes. -/
theorem C19_db3_exceeds : ∃ db id r, DB3.Reach DB3.P0 db ∧ OMap.find db id = some r ∧
    (enc3 (DB3.rowToPB id r)).length = 55 ∧ max3 = 54 := by
  let l : DB3.Log := ⟨DB3.ida, .create 128 DB3.elt, DB3.key⟩
  have e : ∃ db r, DB3.runEvs DB3.P0 DB3.empty [.entry (fun _ => true) l] = .ok db ∧
      OMap.find db DB3.ida = some r ∧ (enc3 (DB3.rowToPB DB3.ida r)).length = 55 := ⟨_, _, rfl, rfl, by decide⟩
  obtain ⟨db, r, h1, h2, h3⟩ := e
  refine ⟨db, _, r, ⟨_, ?_, h1⟩, h2, h3, rfl⟩
  intro e he
  simp only [List.mem_singleton] at he
  subst he
  show DB3.validate _ = none
  decide

def evs4 : List DB4.Ev := [.entry (fun _ => true) ⟨DB4.ida, DB4.mk 128⟩,
  .entry (fun _ => true) ⟨DB4.ida, .rotateStart 8 DB4.sc2 DB4.sc1⟩]
def db4 : DB4.DB := match DB4.runEvs DB4.P0 DB4.empty evs4 with | .ok db => db | _ => DB4.empty

set_option maxRecDepth 4000 in
/-- **C19 (SVR4)**, negation: a reachable row of 243 bytes. -/
theorem C19_db4_exceeds : ∃ db id r, DB4.Reach DB4.P0 db ∧ OMap.find db.rows id = some r ∧
    (enc4 (DB4.rowToPB id (r, db.rot.find id))).length = 243 ∧ max4 = 234 := by
  have hr : DB4.Reach DB4.P0 db4 := by
    refine ⟨evs4, ?_, by decide⟩
    intro e he
    simp only [evs4, List.mem_cons, List.not_mem_nil, or_false] at he
    rcases he with rfl | rfl <;> (show DB4.validate DB4.P0 _ = none; decide)
  have hlen : (db4.rows.find DB4.ida).map (fun r => (enc4 (DB4.rowToPB DB4.ida (r, db4.rot.find DB4.ida))).length) = some 243 := by
    decide
  cases hf : db4.rows.find DB4.ida with
  | none => rw [hf] at hlen; cases hlen
  | some r =>
    rw [hf] at hlen
    exact ⟨db4, _, r, hr, hf, Option.some.inj hlen, rfl⟩

/-- A reachable SVR5 row, of exactly the advertised size. -/
example : (match DB5.runEvs DB5.P0 DB5.empty DB5.evs with
  | .ok db => (match DB5.rowsAsProtos db [] 9 with | .ok (_, rows) => rows.map (fun x => (enc5 x).length) | _ => [])
  | _ => []) = [52, 52] := by decide

end Svr.Props.RowSize
