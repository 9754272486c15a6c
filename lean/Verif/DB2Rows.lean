import Verif.DB2

/-!
# Row-level facts about the SVR2 database

`RowOK` is the invariant kept by every operation, including loading rows sent by anybody. Nothing here
assumes that the integrity tree is intact (`path` is arbitrary).
-/

namespace Svr.DB2

/-- The bytes hashed for a row whose size field is in range. -/
def rowRaw (id : Bytes) (r : Row) : Bytes :=
  id ++ be32 r.state.toNat ++ be32 r.tries.toNat ++ be32 r.dataSize.toNat
    ++ padTo MAX_DATA_SIZE (r.data.take r.dataSize.toNat) ++ r.pin

theorem rowBytes_ok {id : Bytes} {r : Row} (h : r.dataSize.toNat ≤ 48) : rowBytes id r = .ok (rowRaw id r) := by
  unfold rowBytes
  rw [if_neg (show ¬ r.dataSize.toNat > MAX_DATA_SIZE from Nat.not_lt.mpr h)]
  rfl

/-- A well-formed row. -/
structure RowOK (P : Prims) (id : Bytes) (r : Row) : Prop where
  id_len : id.length = 16
  tries_pos : r.tries ≠ 0
  size_ge : 16 ≤ r.dataSize.toNat
  size_le : r.dataSize.toNat ≤ 48
  data_eq : r.data = padTo 48 (r.data.take r.dataSize.toNat)
  data_len : r.data.length = 48
  pin_len : r.pin.length = 32
  leaf_eq : r.leaf = hashFrom (P.sip16 (rowRaw id r))

/-- Every row of the database is well formed. -/
def Inv (P : Prims) (db : DB) : Prop := ∀ id r, db.find id = some r → RowOK P id r

theorem inv_empty (P : Prims) : Inv P empty := by intro id r h; simp [empty] at h

theorem inv_insert {P : Prims} {db : DB} {id : Bytes} {r : Row} (h : Inv P db) (hr : RowOK P id r) :
    Inv P (db.insert id r) := by
  intro id' r' h'
  rw [OMap.find_insert] at h'
  split at h'
  · rename_i e; subst e; cases h'; exact hr
  · exact h id' r' h'

theorem inv_erase {P : Prims} {db : DB} {id : Bytes} (h : Inv P db) : Inv P (db.erase id) := by
  intro id' r' h'
  rw [OMap.find_erase] at h'
  split at h'
  · cases h'
  · exact h id' r' h'

theorem updateLeaf_ok {P : Prims} {id : Bytes} {r : Row} (h : r.dataSize.toNat ≤ 48) :
    updateLeaf P id r = .ok { r with leaf := hashFrom (P.sip16 (rowRaw id r)) } := by
  simp [updateLeaf, hashRow, rowBytes_ok h]

theorem verify_ok {P : Prims} {path : Bytes → Bool} {id : Bytes} {r : Row} (h : r.dataSize.toNat ≤ 48) :
    verify P path id r = .ok (ctEq (hashFrom (P.sip16 (rowRaw id r))) r.leaf && path id) := by
  simp [verify, hashRow, rowBytes_ok h]

theorem u8_ofNat_toNat' {n : Nat} (h : n ≤ 255) : (UInt8.ofNat n).toNat = n := by
  rw [UInt8.toNat_ofNat']; omega

theorem copyInto_ok' {n : Nat} {arr s : Bytes} (h : s.length ≤ n) :
    copyInto n arr s = .ok (s ++ arr.drop s.length) := by
  unfold copyInto; rw [if_neg (by omega)]

theorem newRow_data (s : Bytes) : s ++ (zeros 48).drop s.length = padTo 48 s := by
  simp only [zeros, padTo, List.drop_replicate]

/-- Row made from loaded or uploaded fields. -/
theorem mkRow_ok (P : Prims) {id data pin : Bytes} {st : State} {t : UInt8} (hid : id.length = 16)
    (h1 : 16 ≤ data.length) (h2 : data.length ≤ 48) (hp : pin.length = 32) (ht : t ≠ 0) :
    RowOK P id ⟨st, t, UInt8.ofNat data.length, padTo 48 data, pin,
      hashFrom (P.sip16 (rowRaw id ⟨st, t, UInt8.ofNat data.length, padTo 48 data, pin, zeros 8⟩))⟩ := by
  have hs : (UInt8.ofNat data.length).toNat = data.length := u8_ofNat_toNat' (by omega)
  refine ⟨hid, ht, by simpa [hs] using h1, by simpa [hs] using h2, ?_, ?_, hp, rfl⟩
  · simp only [hs, padTo_take]
  · exact padTo_length h2

theorem u32_toUInt8_toNat {n : UInt32} (h : n.toNat ≤ 255) : n.toUInt8.toNat = n.toNat := by
  have : n.toUInt8.toNat = n.toNat % 2^8 := by simp
  omega

theorem u32_toUInt8_ne {n : UInt32} (h : n.toNat ≤ 255) (h1 : 1 ≤ n.toNat) : n.toUInt8 ≠ 0 := by
  intro e
  have := congrArg UInt8.toNat e
  rw [u32_toUInt8_toNat h] at this
  simp at this
  omega

/-- Exactly what `validate` accepts. -/
theorem validate_iff (log : Log) : validate log = none ↔
    log.id.length = 16 ∧ match log.req with
      | .backup d p n => p.length = 32 ∧ 16 ≤ d.length ∧ d.length ≤ 48 ∧ 1 ≤ n.toNat ∧ n.toNat ≤ 255
      | .restore p => p.length = 32
      | .expose d => 16 ≤ d.length ∧ d.length ≤ 48
      | .delete => True
      | .tries => True
      | .unset => False := by
  obtain ⟨id, req⟩ := log
  unfold validate
  constructor
  · intro h
    obtain ⟨h0, h⟩ := ite_some_eq_none h
    refine ⟨not_not.mp h0, ?_⟩
    cases req with
    | backup d p n =>
      simp only at h ⊢
      obtain ⟨h1, h⟩ := ite_some_eq_none h
      obtain ⟨h2, h⟩ := ite_some_eq_none h
      obtain ⟨h3, h⟩ := ite_some_eq_none h
      obtain ⟨h4, h⟩ := ite_some_eq_none h
      obtain ⟨h5, h⟩ := ite_some_eq_none h
      exact ⟨not_not.mp h1, Nat.not_lt.mp h3, Nat.not_lt.mp h2, Nat.not_lt.mp h5, Nat.not_lt.mp h4⟩
    | restore p =>
      simp only at h ⊢
      obtain ⟨h1, h⟩ := ite_some_eq_none h
      exact not_not.mp h1
    | expose d =>
      simp only at h ⊢
      obtain ⟨h1, h⟩ := ite_some_eq_none h
      obtain ⟨h2, h⟩ := ite_some_eq_none h
      exact ⟨Nat.not_lt.mp h2, Nat.not_lt.mp h1⟩
    | delete => trivial
    | tries => trivial
    | unset => simp at h
  · rintro ⟨h0, h⟩
    rw [if_neg (fun x => x h0)]
    cases req with
    | backup d p n =>
      obtain ⟨h1, h2, h3, h4, h5⟩ := h
      simp only
      rw [if_neg (fun x => x h1), if_neg (show ¬ d.length > MAX_DATA_SIZE from Nat.not_lt.mpr h3),
        if_neg (show ¬ d.length < MIN_DATA_SIZE from Nat.not_lt.mpr h2),
        if_neg (show ¬ n.toNat > MAX_ALLOWED_MAX_TRIES from Nat.not_lt.mpr h5),
        if_neg (show ¬ n.toNat < MIN_ALLOWED_MAX_TRIES from Nat.not_lt.mpr h4)]
    | restore p => simp only; rw [if_neg (fun x => x h)]
    | expose d =>
      simp only
      rw [if_neg (show ¬ d.length > MAX_DATA_SIZE from Nat.not_lt.mpr h.2),
        if_neg (show ¬ d.length < MIN_DATA_SIZE from Nat.not_lt.mpr h.1)]
    | delete => rfl
    | tries => rfl
    | unset => exact h.elim

theorem backup_inv {P : Prims} {db : DB} {id d p : Bytes} {n : UInt32} (h : Inv P db)
    (hid : id.length = 16) (hp : p.length = 32) (h1 : 16 ≤ d.length) (h2 : d.length ≤ 48)
    (h3 : 1 ≤ n.toNat) (h4 : n.toNat ≤ 255) :
    ∃ db', backup P db id d p n = .ok (db', .backup) ∧ Inv P db' := by
  have hs : (UInt8.ofNat d.length).toNat = d.length := u8_ofNat_toNat' (by omega)
  have hc : ∀ r : Row, (r.clear POPULATED).data = zeros 48 := fun _ => rfl
  have hcp : ∀ r : Row, (r.clear POPULATED).pin = zeros 32 := fun _ => rfl
  unfold backup
  simp only [hc, hcp, copyInto_ok' h2, copyInto_ok' (show p.length ≤ PIN_SIZE from Nat.le_of_eq hp),
    Out.bind_ok, newRow_data]
  rw [updateLeaf_ok (by simp only [hs]; exact h2)]
  simp only [Out.bind_ok, Out.pure_eq]
  refine ⟨_, rfl, inv_insert h ?_⟩
  have hpd : p ++ (zeros 32).drop p.length = p := by simp [zeros, hp]
  simp only [hpd]
  exact mkRow_ok P hid h1 h2 hp (u32_toUInt8_ne h4 h3)

/-- One validated entry on a well-formed database: no abort, no UB, still well formed. -/
theorem run_inv {P : Prims} (path : Bytes → Bool) {db : DB} (log : Log) (h : Inv P db)
    (hv : validate log = none) : ∃ db' r, run P path db log = .ok (db', r) ∧ Inv P db' := by
  have hv' := (validate_iff log).mp hv
  obtain ⟨id, req⟩ := log
  unfold run
  have hid : (id.length == BACKUP_ID_SIZE) = true := by simpa using hv'.1
  simp only [hv, beq_self_eq_true, hid, Out.check_true, Out.bind_ok]
  cases req with
  | backup d p n =>
    obtain ⟨hi, h1, h2, h3, h4, h5⟩ := hv'
    obtain ⟨db', e, hi'⟩ := backup_inv h hi h1 h2 h3 h4 h5
    exact ⟨db', _, e, hi'⟩
  | restore g =>
    simp only [restore]
    cases hf : db.find id with
    | none => exact ⟨_, _, rfl, h⟩
    | some r =>
      have hr := h id r hf
      simp only
      by_cases hst : r.state ≠ AVAILABLE
      · rw [if_pos hst]; exact ⟨_, _, rfl, h⟩
      · rw [if_neg hst, verify_ok hr.size_le]
        simp only [Out.bind_ok, Out.pure_eq]
        by_cases hve : (!(ctEq (hashFrom (P.sip16 (rowRaw id r))) r.leaf && path id)) = true
        · rw [if_pos hve]; exact ⟨_, _, rfl, h⟩
        · rw [if_neg hve]
          by_cases hg : ctEq g r.pin = true
          · rw [if_pos hg]; exact ⟨_, _, rfl, h⟩
          · rw [if_neg hg]
            by_cases ht : r.tries - 1 = 0
            · rw [if_pos ht]; exact ⟨_, _, rfl, inv_erase h⟩
            · rw [if_neg ht, updateLeaf_ok (by exact hr.size_le)]
              simp only [Out.bind_ok]
              exact ⟨_, _, rfl, inv_insert h ⟨hr.id_len, ht, hr.size_ge, hr.size_le, hr.data_eq, hr.data_len, hr.pin_len, rfl⟩⟩
  | delete =>
    simp only [delete]
    cases hf : db.find id with
    | none => exact ⟨_, _, rfl, h⟩
    | some r => exact ⟨_, _, rfl, inv_erase h⟩
  | expose d =>
    simp only [expose]
    cases hf : db.find id with
    | none => exact ⟨_, _, rfl, h⟩
    | some r =>
      have hr := h id r hf
      simp only
      rw [verify_ok hr.size_le]
      simp only [Out.bind_ok, Out.pure_eq]
      by_cases hve : (!(ctEq (hashFrom (P.sip16 (rowRaw id r))) r.leaf && path id)) = true
      · rw [if_pos hve]; exact ⟨_, _, rfl, h⟩
      · rw [if_neg hve]
        by_cases hp : (!ctEqPrefix r.data d r.dataSize.toNat) = true
        · rw [if_pos hp]; exact ⟨_, _, rfl, h⟩
        · rw [if_neg hp]
          by_cases hs : r.state = POPULATED ∨ r.state = AVAILABLE
          · rw [if_pos hs, updateLeaf_ok (by exact hr.size_le)]
            simp only [Out.bind_ok]
            exact ⟨_, _, rfl, inv_insert h ⟨hr.id_len, hr.tries_pos, hr.size_ge, hr.size_le, hr.data_eq, hr.data_len, hr.pin_len, rfl⟩⟩
          · rw [if_neg hs]; exact ⟨_, _, rfl, h⟩
  | tries =>
    simp only [triesReq]
    cases hf : db.find id with
    | none => exact ⟨_, _, rfl, h⟩
    | some r => exact ⟨_, _, rfl, h⟩
  | unset => exact absurd hv'.2 (by simp)

/-! ### Loading rows -/

/-- Row built from an accepted protobuf. -/
def rowOfPB (P : Prims) (x : RowPB) : Row :=
  ⟨x.state, x.tries.toUInt8, UInt8.ofNat x.data.length, padTo 48 x.data, x.pin,
    hashFrom (P.sip16 (rowRaw x.id ⟨x.state, x.tries.toUInt8, UInt8.ofNat x.data.length, padTo 48 x.data, x.pin, zeros 8⟩))⟩

/-- A received row that passes the size checks. -/
structure PBOK (x : RowPB) : Prop where
  tries_le : x.tries.toNat ≤ 255
  tries_pos : 1 ≤ x.tries.toNat
  pin_len : x.pin.length = 32
  data_ge : 16 ≤ x.data.length
  data_le : x.data.length ≤ 48
  id_len : x.id.length = 16

theorem rowOfPB_ok (P : Prims) {x : RowPB} (h : PBOK x) : RowOK P x.id (rowOfPB P x) :=
  mkRow_ok P h.id_len h.data_ge h.data_le h.pin_len (u32_toUInt8_ne h.tries_le h.tries_pos)

theorem loadRow_cases (P : Prims) (db : DB) (o : Option RowPB) :
    (∃ e, loadRow P db o = .ok (db, some e)) ∨
    (∃ x, o = some x ∧ PBOK x ∧ (∀ p ∈ db.list, p.1 < x.id) ∧
      loadRow P db o = .ok (db.insert x.id (rowOfPB P x), none)) := by
  cases o with
  | none => exact Or.inl ⟨_, rfl⟩
  | some x =>
    unfold loadRow
    simp only
    by_cases h : x.tries.toNat > MAX_ALLOWED_MAX_TRIES ∨ x.tries.toNat = 0 ∨ x.pin.length ≠ PIN_SIZE ∨
       x.data.length < MIN_DATA_SIZE ∨ x.data.length > MAX_DATA_SIZE
    · rw [if_pos h]; exact Or.inl ⟨_, rfl⟩
    · rw [if_neg h]
      simp only [not_or] at h
      obtain ⟨h1, h2, h3, h4, h5⟩ := h
      by_cases hid : x.id.length ≠ BACKUP_ID_SIZE
      · simp only [backupIDFromString, if_pos hid]; exact Or.inl ⟨_, rfl⟩
      · simp only [backupIDFromString, if_neg hid]
        have hok : PBOK x := ⟨Nat.not_lt.mp h1, by omega, not_not.mp h3, Nat.not_lt.mp h4, Nat.not_lt.mp h5, not_not.mp hid⟩
        by_cases ho : db.outOfOrder x.id = true
        · rw [if_pos ho]; exact Or.inl ⟨_, rfl⟩
        · rw [if_neg ho]
          right
          refine ⟨x, rfl, hok, ?_, ?_⟩
          · exact OMap.outOfOrder_false.mp (by simpa using ho)
          · have hs : (UInt8.ofNat x.data.length).toNat = x.data.length := u8_ofNat_toNat' (by have := hok.data_le; omega)
            have e1 : newRow.pin = zeros 32 := rfl
            have e2 : newRow.data = zeros 48 := rfl
            have hpd : x.pin ++ (zeros 32).drop x.pin.length = x.pin := by simp [zeros, hok.pin_len]
            rw [e1, e2, copyInto_ok' (Nat.le_of_eq hok.pin_len), copyInto_ok' hok.data_le]
            simp only [Out.bind_ok, newRow_data, hpd]
            rw [updateLeaf_ok (by simp only [hs]; exact hok.data_le)]
            rfl

theorem loadRow_step (P : Prims) (db : DB) (o : Option RowPB) (db' : DB) (e : Option Err)
    (h : loadRow P db o = .ok (db', e)) :
    (e ≠ none ∧ db' = db) ∨
    (e = none ∧ ∃ x k v, o = some x ∧ (PBOK x ∧ k = x.id ∧ v = rowOfPB P x) ∧ db'.list = db.list ++ [(k, v)]) := by
  rcases loadRow_cases P db o with ⟨e', h'⟩ | ⟨x, rfl, hok, hlt, h'⟩
  · rw [h'] at h
    simp only [Out.ok.injEq, Prod.mk.injEq] at h
    obtain ⟨rfl, rfl⟩ := h
    exact Or.inl ⟨by simp, rfl⟩
  · rw [h'] at h
    simp only [Out.ok.injEq, Prod.mk.injEq] at h
    obtain ⟨rfl, rfl⟩ := h
    exact Or.inr ⟨rfl, x, x.id, rowOfPB P x, rfl, ⟨hok, rfl, rfl⟩, OMap.insert_list_of_lt _ _ _ hlt⟩

/-- Loading never aborts and keeps the invariant. -/
theorem loadLoop_inv (P : Prims) (rows : List (Option RowPB)) (db : DB) (h : Inv P db) :
    ∃ db' e, loadLoop P db rows = .ok (db', e) ∧ Inv P db' := by
  unfold loadLoop
  induction rows generalizing db with
  | nil => exact ⟨db, none, rfl, h⟩
  | cons o rows ih =>
    rcases loadRow_cases P db o with ⟨e', h'⟩ | ⟨x, rfl, hok, hlt, h'⟩
    · exact ⟨db, some e', by simp [loadLoopG, h'], h⟩
    · obtain ⟨db2, e2, h2, hi2⟩ := ih _ (inv_insert h (rowOfPB_ok P hok))
      exact ⟨db2, e2, by simp [loadLoopG, h', h2], hi2⟩

theorem loadRows_inv (P : Prims) (rows : List (Option RowPB)) (db : DB) (h : Inv P db) (hne : rows ≠ []) :
    ∃ db' e, loadRows P db rows = .ok (db', e) ∧ Inv P db' := by
  obtain ⟨db', e, h1, h2⟩ := loadLoop_inv P rows db h
  unfold loadRows
  have : (rows.length != 0) = true := by simpa using hne
  simp only [this, Out.check_true, Out.bind_ok, h1]
  cases e with
  | some e => exact ⟨db', _, rfl, h2⟩
  | none =>
    simp only
    split <;> exact ⟨db', _, rfl, h2⟩

/-! ### Streaming -/

theorem rowToPB_ok {P : Prims} {id : Bytes} {r : Row} (h : RowOK P id r) : PBOK (rowToPB id r) := by
  have h1 : r.tries.toUInt32.toNat = r.tries.toNat := by simp
  have h2 : r.tries.toNat < 256 := r.tries.toNat_lt
  have h3 : r.tries.toNat ≠ 0 := fun e => h.tries_pos (UInt8.toNat_inj.mp (by simpa using e))
  have h4 : (r.data.take r.dataSize.toNat).length = r.dataSize.toNat := by
    have := h.size_le; simp [h.data_len]; omega
  have h5 := h.size_le
  have h6 := h.size_ge
  refine ⟨?_, ?_, h.pin_len, ?_, ?_, h.id_len⟩ <;> simp only [rowToPB, h1, h4] <;> omega

theorem rowOfPB_toPB {P : Prims} {id : Bytes} {r : Row} (h : RowOK P id r) :
    rowOfPB P (rowToPB id r) = r := by
  have h4 : (r.data.take r.dataSize.toNat).length = r.dataSize.toNat := by
    have := h.size_le; simp [h.data_len]; omega
  have e1 : UInt8.ofNat (r.data.take r.dataSize.toNat).length = r.dataSize := by
    rw [h4]; simp
  have e2 : r.tries.toUInt32.toUInt8 = r.tries := by simp
  have hd := h.data_eq
  have hl := h.leaf_eq
  obtain ⟨st, t, ds, data, pin, leaf⟩ := r
  simp only [rowOfPB, rowToPB] at *
  rw [e1, e2, ← hd, hl]
  rfl

theorem load_emitted {P : Prims} {db : DB} {id : Bytes} {r : Row} (h : RowOK P id r)
    (hlt : ∀ p ∈ db.list, p.1 < id) :
    loadRow P db (some (rowToPB id r)) = .ok (db.insert id r, none) := by
  rcases loadRow_cases P db (some (rowToPB id r)) with ⟨e, he⟩ | ⟨x, hx, hok, _, h'⟩
  · exfalso
    have hok := rowToPB_ok h
    unfold loadRow at he
    simp only at he
    rw [if_neg (by
      have a := hok.tries_le; have b := hok.tries_pos; have c := hok.data_ge; have d := hok.data_le
      have f := hok.pin_len
      simp only [MAX_ALLOWED_MAX_TRIES, PIN_SIZE, MIN_DATA_SIZE, MAX_DATA_SIZE, not_or, ne_eq, not_not]
      exact ⟨by omega, by omega, f, by omega, by omega⟩)] at he
    have hid : ¬ (rowToPB id r).id.length ≠ BACKUP_ID_SIZE := not_not.mpr h.id_len
    simp only [backupIDFromString, if_neg hid] at he
    have ho : ¬ db.outOfOrder (rowToPB id r).id = true := by
      have : db.outOfOrder (rowToPB id r).id = false := OMap.outOfOrder_false.mpr hlt
      rw [this]; simp
    rw [if_neg ho] at he
    have e1 : newRow.pin = zeros 32 := rfl
    have e2 : newRow.data = zeros 48 := rfl
    rw [e1, e2, copyInto_ok' (Nat.le_of_eq hok.pin_len), copyInto_ok' hok.data_le] at he
    simp only [Out.bind_ok] at he
    rw [updateLeaf_ok (by
      simp only
      rw [u8_ofNat_toNat' (by have := hok.data_le; omega)]; exact hok.data_le)] at he
    simp at he
  · cases hx
    rw [h', rowOfPB_toPB h]; rfl

theorem lastId_map (c : List (Bytes × Row)) :
    lastId ((c.map (fun p => rowToPB p.1 p.2)).map some) = lastKeyOf c := by
  rcases List.eq_nil_or_concat c with rfl | ⟨l, ⟨k, v⟩, rfl⟩
  · rfl
  · simp [lastId, lastKeyOf, rowToPB]

theorem loadRows_emitted {P : Prims} {m1 m2 : DB} {c : List (Bytes × Row)} (h : m2.list = m1.list ++ c)
    (hne : c ≠ []) (hg : ∀ p ∈ c, RowOK P p.1 p.2) :
    loadRows P m1 ((c.map (fun p => rowToPB p.1 p.2)).map some) = .ok (m2, .ok (lastKeyOf c)) := by
  have hl := loadLoopG_ok (loadRow P) id rowToPB (RowOK P)
    (fun m k v hkv hlt => load_emitted hkv hlt) c m1 m2 h hg
  unfold loadRows
  have hlen : (((c.map (fun p => rowToPB p.1 p.2)).map some).length != 0) = true := by
    simpa using hne
  simp only [hlen, Out.check_true, Out.bind_ok, loadLoop]
  simp only [id] at hl
  rw [hl]
  simp only [Out.bind_ok]
  rw [if_neg (by simp [OMap.size, h]), lastId_map]
  rfl

theorem rowsAsProtos_ok {P : Prims} {db : DB} (h : Inv P db) (l1 l2 : List (Bytes × Row)) (n : Nat)
    (hs : db.list = l1 ++ l2) :
    rowsAsProtos db (lastKeyOf l1) n =
      .ok (lastKeyOf ((rowsAfter db (lastKeyOf l1)).take n), ((rowsAfter db (lastKeyOf l1)).take n).map (fun p => rowToPB p.1 p.2)) := by
  unfold rowsAsProtos rowsAfter
  by_cases hc : (lastKeyOf l1).isEmpty = true
  · rw [if_pos hc, if_pos hc]
  · rw [if_neg hc, if_neg hc]
    have hlen : (lastKeyOf l1).length = 16 := by
      rcases List.eq_nil_or_concat l1 with rfl | ⟨l, ⟨k, v⟩, rfl⟩
      · simp [lastKeyOf] at hc
      · have : lastKeyOf (l.concat (k, v)) = k := by simp [lastKeyOf]
        rw [this]
        exact (h k v (OMap.mem_list.mp (by rw [hs]; simp))).id_len
    have : backupIDFromString (lastKeyOf l1) = some (lastKeyOf l1) := by
      simp [backupIDFromString, hlen]
    rw [this]

/-! ### Locality -/

/-- The effect of one entry depends only on the account's own row, and touches only that row. -/
theorem run_local (P : Prims) (path : Bytes → Bool) (log : Log) :
    ∃ f : Option Row → Out (Option Row × Resp), ∀ db : DB,
      run P path db log = (do let (o, r) ← f (db.find log.id); pure (db.set log.id o, r)) := by
  refine ⟨fun o => do
    let (db', r) ← run P path ((OMap.empty : DB).set log.id o) log
    pure (db'.find log.id, r), ?_⟩
  intro db
  obtain ⟨id, req⟩ := log
  unfold run
  cases hv : (validate ⟨id, req⟩ == none) with
  | false => simp
  | true =>
    cases hid : (id.length == BACKUP_ID_SIZE) with
    | false => simp
    | true =>
      simp only [Out.check_true, Out.bind_ok]
      cases req with
      | backup d p n =>
        simp only [backup, OMap.find_set_self]
        cases h1 : copyInto MAX_DATA_SIZE (Row.clear ((db.find id).getD newRow) POPULATED).data d with
        | ok d' =>
          cases h2 : copyInto PIN_SIZE (Row.clear ((db.find id).getD newRow) POPULATED).pin p with
          | ok p' =>
            simp only [Out.bind_ok]
            cases h3 : updateLeaf P id
              { Row.clear ((db.find id).getD newRow) POPULATED with
                data := d', dataSize := UInt8.ofNat d.length, tries := n.toUInt8, pin := p' } with
            | ok r => simp [OMap.set]
            | abort => simp
            | ub => simp
          | abort => simp
          | ub => simp
        | abort => simp
        | ub => simp
      | restore g =>
        simp only [restore, OMap.find_set_self]
        cases hf : db.find id with
        | none => simp [OMap.set, OMap.erase_of_find_none hf]
        | some row =>
          simp only
          by_cases hs : row.state ≠ AVAILABLE
          · rw [if_pos hs, if_pos hs]
            simp [OMap.set, OMap.insert_of_find hf]
          · rw [if_neg hs, if_neg hs]
            cases hve : verify P path id row with
            | abort => simp
            | ub => simp
            | ok b =>
              cases b with
              | false => simp [OMap.set, OMap.insert_of_find hf]
              | true =>
                simp only [Out.bind_ok, Bool.not_true, Bool.false_eq_true, if_false]
                by_cases hg : ctEq g row.pin = true
                · rw [if_pos hg, if_pos hg]; simp [OMap.set, OMap.insert_of_find hf]
                · rw [if_neg hg, if_neg hg]
                  by_cases ht : row.tries - 1 = 0
                  · rw [if_pos ht, if_pos ht]; simp [OMap.set]
                  · rw [if_neg ht, if_neg ht]
                    cases hu : updateLeaf P id { row with tries := row.tries - 1 } with
                    | ok r2 => simp [OMap.set]
                    | abort => simp
                    | ub => simp
      | delete =>
        simp only [delete, OMap.find_set_self]
        cases hf : db.find id with
        | none => simp [OMap.set, OMap.erase_of_find_none hf]
        | some row => simp [OMap.set]
      | expose d =>
        simp only [expose, OMap.find_set_self]
        cases hf : db.find id with
        | none => simp [OMap.set, OMap.erase_of_find_none hf]
        | some row =>
          simp only
          cases hve : verify P path id row with
          | abort => simp
          | ub => simp
          | ok b =>
            cases b with
            | false => simp [OMap.set, OMap.insert_of_find hf]
            | true =>
              simp only [Out.bind_ok, Bool.not_true, Bool.false_eq_true, if_false]
              by_cases hp : (!ctEqPrefix row.data d row.dataSize.toNat) = true
              · rw [if_pos hp, if_pos hp]; simp [OMap.set, OMap.insert_of_find hf]
              · rw [if_neg hp, if_neg hp]
                by_cases hs : row.state = POPULATED ∨ row.state = AVAILABLE
                · rw [if_pos hs, if_pos hs]
                  cases hu : updateLeaf P id { row with state := AVAILABLE } with
                  | ok r2 => simp [OMap.set]
                  | abort => simp
                  | ub => simp
                · rw [if_neg hs, if_neg hs]; simp [OMap.set, OMap.insert_of_find hf]
      | tries =>
        simp only [triesReq, OMap.find_set_self]
        cases hf : db.find id with
        | none => simp [OMap.set, OMap.erase_of_find_none hf]
        | some row => simp [OMap.set, OMap.insert_of_find hf]
      | unset =>
        simp [OMap.set_find]

end Svr.DB2

namespace Svr.DB2

/-! ### Hashing -/

/-- Equal hashed bytes mean equal content. -/
theorem rowRaw_inj {id id' : Bytes} {r r' : Row} (hi : id.length = 16) (hi' : id'.length = 16)
    (hs : r.dataSize.toNat ≤ 48) (hs' : r'.dataSize.toNat ≤ 48)
    (hd : r.data.length = 48) (hd' : r'.data.length = 48)
    (h : rowRaw id r = rowRaw id' r') :
    id = id' ∧ r.state = r'.state ∧ r.tries = r'.tries ∧ r.dataSize = r'.dataSize ∧
      r.data.take r.dataSize.toNat = r'.data.take r'.dataSize.toNat ∧ r.pin = r'.pin := by
  unfold rowRaw at h
  have hl : ∀ x : Row, x.dataSize.toNat ≤ 48 → x.data.length = 48 →
      (padTo MAX_DATA_SIZE (x.data.take x.dataSize.toNat)).length = 48 := by
    intro x hx hx'
    exact padTo_length (by rw [List.length_take, hx']; exact Nat.min_le_right _ _)
  have h1 := List.append_inj h (by simp [hi, hi', hl r hs hd, hl r' hs' hd'])
  have h2 := List.append_inj h1.1 (by simp [hi, hi'])
  have h3 := List.append_inj h2.1 (by simp [hi, hi'])
  have h4 := List.append_inj h3.1 (by simp [hi, hi'])
  have h5 := List.append_inj h4.1 (by simp [hi, hi'])
  have e1 : r.state = r'.state := UInt32.toNat_inj.mp
    (be32_inj r.state.toNat_lt r'.state.toNat_lt h5.2)
  have e2 : r.tries = r'.tries := UInt8.toNat_inj.mp
    (be32_inj (by have := r.tries.toNat_lt; omega) (by have := r'.tries.toNat_lt; omega) h4.2)
  have e3 : r.dataSize = r'.dataSize := UInt8.toNat_inj.mp
    (be32_inj (by omega) (by omega) h3.2)
  refine ⟨h5.1, e1, e2, e3, ?_, h1.2⟩
  have a : (padTo MAX_DATA_SIZE (r.data.take r.dataSize.toNat)).take r.dataSize.toNat = r.data.take r.dataSize.toNat := by
    have := padTo_take (n := MAX_DATA_SIZE) (s := r.data.take r.dataSize.toNat)
    rwa [show (r.data.take r.dataSize.toNat).length = r.dataSize.toNat by simp [hd]; omega] at this
  have b : (padTo MAX_DATA_SIZE (r'.data.take r'.dataSize.toNat)).take r'.dataSize.toNat = r'.data.take r'.dataSize.toNat := by
    have := padTo_take (n := MAX_DATA_SIZE) (s := r'.data.take r'.dataSize.toNat)
    rwa [show (r'.data.take r'.dataSize.toNat).length = r'.dataSize.toNat by simp [hd']; omega] at this
  rw [← a, ← b, h2.2, e3]

theorem row_ext {P : Prims} {id : Bytes} {r r' : Row} (h : RowOK P id r) (h' : RowOK P id r')
    (hr : rowRaw id r = rowRaw id r') : r = r' := by
  obtain ⟨_, e1, e2, e3, e4, e5⟩ := rowRaw_inj h.id_len h'.id_len h.size_le h'.size_le h.data_len h'.data_len hr
  have e6 : r.data = r'.data := by rw [h.data_eq, h'.data_eq, e4]
  have e7 : r.leaf = r'.leaf := by rw [h.leaf_eq, h'.leaf_eq, hr]
  cases r; cases r'; simp_all

theorem hashRows_ok {P : Prims} : ∀ (l : List (Bytes × Row)), (∀ p ∈ l, RowOK P p.1 p.2) →
    hashRows P l = .ok (l.flatMap (fun p => P.sip16 (rowRaw p.1 p.2)))
  | [], _ => rfl
  | (id, r) :: l, h => by
      have h1 := h (id, r) List.mem_cons_self
      simp only [hashRows, hashRow, rowBytes_ok h1.size_le, Out.bind_ok, Out.pure_eq,
        hashRows_ok l (fun p hp => h p (List.mem_cons_of_mem _ hp)), List.flatMap_cons]

theorem inv_mem {P : Prims} {db : DB} (h : Inv P db) {p : Bytes × Row} (hp : p ∈ db.list) : RowOK P p.1 p.2 :=
  h p.1 p.2 (OMap.mem_list.mp hp)

theorem hashInput_ok {P : Prims} {db : DB} (h : Inv P db) :
    hashInput P db = .ok (be64 db.size ++ db.list.flatMap (fun p => P.sip16 (rowRaw p.1 p.2))) := by
  simp [hashInput, hashRows_ok db.list (fun p hp => inv_mem h hp)]

theorem hash_ok {P : Prims} {db : DB} (h : Inv P db) :
    hash P db = .ok (P.sha256 (be64 db.size ++ db.list.flatMap (fun p => P.sip16 (rowRaw p.1 p.2)))) := by
  simp [hash, hashInput_ok h]

/-- Two row lists with equal hashes, under no collisions between their rows. -/
theorem rows_eq_of_map {P : Prims} : ∀ (l1 l2 : List (Bytes × Row)),
    (∀ p ∈ l1, RowOK P p.1 p.2) → (∀ p ∈ l2, RowOK P p.1 p.2) →
    (∀ p ∈ l1, ∀ q ∈ l2, P.sip16 (rowRaw p.1 p.2) = P.sip16 (rowRaw q.1 q.2) → rowRaw p.1 p.2 = rowRaw q.1 q.2) →
    l1.map (fun p => P.sip16 (rowRaw p.1 p.2)) = l2.map (fun p => P.sip16 (rowRaw p.1 p.2)) → l1 = l2
  | [], [], _, _, _, _ => rfl
  | [], q :: l2, _, _, _, h => by simp at h
  | p :: l1, [], _, _, _, h => by simp at h
  | (k, r) :: l1, (k', r') :: l2, h1, h2, hc, h => by
      simp only [List.map_cons, List.cons.injEq] at h
      have g1 := h1 (k, r) List.mem_cons_self
      have g2 := h2 (k', r') List.mem_cons_self
      have hr := hc (k, r) List.mem_cons_self (k', r') List.mem_cons_self h.1
      have hk : k = k' := (rowRaw_inj g1.id_len g2.id_len g1.size_le g2.size_le g1.data_len g2.data_len hr).1
      subst hk
      have := row_ext g1 g2 hr
      subst this
      rw [rows_eq_of_map l1 l2 (fun p hp => h1 p (List.mem_cons_of_mem _ hp))
        (fun p hp => h2 p (List.mem_cons_of_mem _ hp))
        (fun p hp q hq => hc p (List.mem_cons_of_mem _ hp) q (List.mem_cons_of_mem _ hq)) h.2]

/-! ### Histories with row loads -/

/-- Everything that drives a database: a committed entry (with the outcome of the integrity walk at that
moment) or a batch of received rows. -/
inductive Ev where
  | entry (path : Bytes → Bool) (log : Log)
  | load (rows : List (Option RowPB))

/-- Entries must have passed validation; batches must be non-empty (`HandleReplicateStatePush` calls
`LoadRowsFromProtos` only if the push carries rows). -/
def Ev.ok : Ev → Prop
  | .entry _ l => validate l = none
  | .load rows => rows ≠ []

def stepEv (P : Prims) (db : DB) : Ev → Out DB
  | .entry path l => do let (db', _) ← run P path db l; pure db'
  | .load rows => do let (db', _) ← loadRows P db rows; pure db'

def runEvs (P : Prims) : DB → List Ev → Out DB
  | db, [] => .ok db
  | db, e :: es => do let db' ← stepEv P db e; runEvs P db' es

theorem runEvs_inv (P : Prims) (es : List Ev) (db : DB) (h : Inv P db) (hok : ∀ e ∈ es, e.ok) :
    ∃ db', runEvs P db es = .ok db' ∧ Inv P db' := by
  induction es generalizing db with
  | nil => exact ⟨db, rfl, h⟩
  | cons e es ih =>
    have he := hok e List.mem_cons_self
    have hes := fun x hx => hok x (List.mem_cons_of_mem _ hx)
    cases e with
    | entry path l =>
      obtain ⟨db1, r, h1, h2⟩ := run_inv path l h he
      obtain ⟨db2, h3, h4⟩ := ih db1 h2 hes
      exact ⟨db2, by simp [runEvs, stepEv, h1, h3], h4⟩
    | load rows =>
      obtain ⟨db1, r, h1, h2⟩ := loadRows_inv P rows db h he
      obtain ⟨db2, h3, h4⟩ := ih db1 h2 hes
      exact ⟨db2, by simp [runEvs, stepEv, h1, h3], h4⟩

/-- Reachable databases: from the empty one by validated entries and any row batches. -/
def Reach (P : Prims) (db : DB) : Prop := ∃ es, (∀ e ∈ es, Ev.ok e) ∧ runEvs P empty es = .ok db

theorem reach_inv {P : Prims} {db : DB} (h : Reach P db) : Inv P db := by
  obtain ⟨es, hok, he⟩ := h
  obtain ⟨db', h1, h2⟩ := runEvs_inv P es empty (inv_empty P) hok
  rw [he] at h1; cases h1; exact h2

end Svr.DB2
