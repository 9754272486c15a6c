import Verif.DB2Rows
import Verif.DB3Rows
import Verif.Spec.Vault2

/-!
# SVR2 requests, account by account, with any outcome of the integrity walk

`run_view` says what one entry does to the account it names, as the account's owner would put it: `Spec2.vstep`, unless the walk to the root
fails, and then the request is refused.
-/

namespace Svr.Spec2
open DB2

/-- One request against one account; `ok` is the outcome of the integrity walk, where there is one. -/
def pstep (ok : Bool) (o : Option Vault) (q : Req) : Option Vault × Resp :=
  match o, q with
  | some v, .restore g => if v.exposed = true ∧ ok = false then (some v, .restore .error [] 0) else vstep (some v) (.restore g)
  | some v, .expose d => if ok = false then (some v, .expose false) else vstep (some v) (.expose d)
  | o, q => vstep o q

end Svr.Spec2

namespace Svr.DB2
open Spec2

/-- What a row holds. -/
def viewRow (r : Row) : Vault := ⟨r.data.take r.dataSize.toNat, r.pin, r.tries.toNat, r.state == AVAILABLE⟩

def look (db : DB) (id : Bytes) : Option Vault := (db.find id).map viewRow

/-- Rows as backups and restores leave them: either populated or available. Only rows received from peers could be different. -/
def Backed (db : DB) : Prop := ∀ id r, db.find id = some r → r.state = POPULATED ∨ r.state = AVAILABLE

theorem backed_empty : Backed empty := by intro id r h; simp [empty] at h

theorem backed_insert {db : DB} {id : Bytes} {r : Row} (h : Backed db) (hr : r.state = POPULATED ∨ r.state = AVAILABLE) : Backed (db.insert id r) := by
  intro id' r' h'
  rw [OMap.find_insert] at h'
  split at h'
  · cases h'; exact hr
  · exact h id' r' h'

theorem backed_erase {db : DB} {id : Bytes} (h : Backed db) : Backed (db.erase id) := by
  intro id' r' h'
  rw [OMap.find_erase] at h'
  split at h'
  · cases h'
  · exact h id' r' h'

theorem look_insert {db : DB} {id : Bytes} {r : Row} : look (db.insert id r) id = some (viewRow r) := by simp [look]
theorem look_erase {db : DB} {id : Bytes} : look (db.erase id) id = none := by simp [look]
theorem look_insert_ne {db : DB} {id k : Bytes} {r : Row} (h : k ≠ id) : look (db.insert id r) k = look db k := by
  simp [look, OMap.find_insert_ne _ _ (Ne.symm h)]
theorem look_erase_ne {db : DB} {id k : Bytes} (h : k ≠ id) : look (db.erase id) k = look db k := by
  simp [look, OMap.find_erase_ne _ (Ne.symm h)]

theorem view_step {prims : Prims} {path : Bytes → Bool} {db db' : DB} {l : Log} {r : Resp} (hi : Inv prims db) (hb : Backed db)
    (hv : validate l = none) (h : run prims path db l = .ok (db', r)) :
    r = (pstep (path l.id) (look db l.id) l.req).2 ∧ Backed db' ∧ look db' l.id = (pstep (path l.id) (look db l.id) l.req).1 ∧
      ∀ k, k ≠ l.id → look db' k = look db k := by
  have hv' := (validate_iff l).mp hv
  obtain ⟨id, req⟩ := l
  show r = (pstep (path id) (look db id) req).2 ∧ Backed db' ∧ look db' id = (pstep (path id) (look db id) req).1 ∧
      ∀ k, k ≠ id → look db' k = look db k
  unfold run at h
  have hid : (id.length == BACKUP_ID_SIZE) = true := by simpa using hv'.1
  simp only [hv, beq_self_eq_true, hid, Out.check_true, Out.bind_ok] at h
  have hlook : ∀ {row : Row}, db.find id = some row → look db id = some (viewRow row) := fun hf => by simp [look, hf]
  have hlook0 : db.find id = none → look db id = none := fun hf => by simp [look, hf]
  cases req with
  | backup d p n =>
    obtain ⟨hi0, h1, h2, h3, h4, h5⟩ := hv'
    have hs : (UInt8.ofNat d.length).toNat = d.length := u8_ofNat_toNat' (by omega)
    have hc : ∀ r : Row, (r.clear POPULATED).data = zeros 48 := fun _ => rfl
    have hcp : ∀ r : Row, (r.clear POPULATED).pin = zeros 32 := fun _ => rfl
    unfold backup at h
    simp only [hc, hcp, copyInto_ok' h3, copyInto_ok' (show p.length ≤ PIN_SIZE from Nat.le_of_eq h1), Out.bind_ok, newRow_data] at h
    rw [updateLeaf_ok (by simp only [hs]; exact h3)] at h
    simp only [Out.bind_ok, Out.pure_eq] at h
    cases h
    have hpd : p ++ (zeros 32).drop p.length = p := by simp [zeros, h1]
    have hst : ∀ x : Row, (x.clear POPULATED).state = POPULATED := fun _ => rfl
    refine ⟨?_, backed_insert hb (.inl rfl), ?_, fun k hk => look_insert_ne hk⟩
    · cases look db id <;> rfl
    · rw [look_insert]
      have : viewRow ⟨POPULATED, n.toUInt8, UInt8.ofNat d.length, padTo 48 d, p ++ (zeros 32).drop p.length, []⟩ = ⟨d, p, n.toNat, false⟩ := by
        simp only [viewRow, hs, padTo_take, hpd, u32_toUInt8_toNat h5]
        rfl
      cases look db id <;> exact congrArg some this
  | restore gs =>
    simp only [restore] at h
    cases hf : db.find id with
    | none =>
      rw [hf] at h
      cases h
      rw [hlook0 hf]
      exact ⟨rfl, hb, rfl, fun _ _ => rfl⟩
    | some row =>
      have hr := hi id row hf
      rw [hlook hf]
      rw [hf] at h
      simp only at h
      by_cases hst : row.state ≠ AVAILABLE
      · rw [if_pos hst] at h
        cases h
        have he : (viewRow row).exposed = false := by simpa [viewRow] using hst
        have hp : pstep (path id) (some (viewRow row)) (.restore gs) = (some (viewRow row), .restore .missing [] 0) := by
          simp [pstep, he, vstep]
        rw [hp]
        exact ⟨rfl, hb, hlook hf, fun _ _ => rfl⟩
      · have hst' : row.state = AVAILABLE := by simpa using hst
        have he : (viewRow row).exposed = true := by simp [viewRow, hst']
        have hleaf : ctEq (hashFrom (prims.sip16 (rowRaw id row))) row.leaf = true := by rw [ctEq_iff, hr.leaf_eq]
        rw [if_neg hst, verify_ok hr.size_le, hleaf, Bool.true_and] at h
        simp only [Out.bind_ok, Out.pure_eq] at h
        cases hp : path id with
        | false =>
          rw [hp] at h
          simp only [Bool.not_false, if_true] at h
          cases h
          have hp' : pstep false (some (viewRow row)) (.restore gs) = (some (viewRow row), .restore .error [] 0) := by simp [pstep, he]
          rw [hp']
          exact ⟨rfl, hb, hlook hf, fun _ _ => rfl⟩
        | true =>
          rw [hp] at h
          simp only [Bool.not_true, Bool.false_eq_true, if_false] at h
          simp only [pstep, he, Bool.true_eq_false, and_false, if_false, vstep]
          by_cases hg : ctEq gs row.pin = true
          · have hg' : gs = (viewRow row).pin := (ctEq_iff _ _).mp hg
            rw [if_pos hg] at h
            cases h
            rw [if_pos hg']
            exact ⟨rfl, hb, hlook hf, fun _ _ => rfl⟩
          · have hg' : gs ≠ (viewRow row).pin := fun e => hg ((ctEq_iff _ _).mpr e)
            rw [if_neg hg] at h
            rw [if_neg hg']
            have hs := DB3.u8_sub_one hr.tries_pos
            have hne : row.tries.toNat ≠ 0 := fun e => hr.tries_pos (DB3.u8_eq_zero_iff.mpr e)
            have hl : (viewRow row).left = row.tries.toNat := rfl
            by_cases ht : row.tries - 1 = 0
            · rw [if_pos ht] at h
              cases h
              have ht' : (row.tries - 1).toNat = 0 := DB3.u8_eq_zero_iff.mp ht
              rw [if_pos (by omega)]
              exact ⟨rfl, backed_erase hb, look_erase, fun k hk => look_erase_ne hk⟩
            · have ht' : (row.tries - 1).toNat ≠ 0 := fun e => ht (DB3.u8_eq_zero_iff.mpr e)
              rw [if_neg ht, updateLeaf_ok (by exact hr.size_le)] at h
              simp only [Out.bind_ok] at h
              cases h
              rw [if_neg (by omega)]
              refine ⟨?_, backed_insert hb (.inr hst'), ?_, fun k hk => look_insert_ne hk⟩
              · simp only [hs, hl]
              · rw [look_insert]
                simp [viewRow, hs, hst']
  | delete =>
    simp only [delete] at h
    cases hf : db.find id with
    | none =>
      rw [hf] at h
      cases h
      rw [hlook0 hf]
      exact ⟨rfl, hb, rfl, fun _ _ => rfl⟩
    | some row =>
      rw [hf] at h
      cases h
      rw [hlook hf]
      exact ⟨rfl, backed_erase hb, look_erase, fun k hk => look_erase_ne hk⟩
  | expose d =>
    simp only [expose] at h
    cases hf : db.find id with
    | none =>
      rw [hf] at h
      cases h
      rw [hlook0 hf]
      exact ⟨rfl, hb, rfl, fun _ _ => rfl⟩
    | some row =>
      have hr := hi id row hf
      rw [hlook hf]
      rw [hf] at h
      simp only at h
      have hleaf : ctEq (hashFrom (prims.sip16 (rowRaw id row))) row.leaf = true := by rw [ctEq_iff, hr.leaf_eq]
      rw [verify_ok hr.size_le, hleaf, Bool.true_and] at h
      simp only [Out.bind_ok, Out.pure_eq] at h
      cases hp : path id with
      | false =>
        rw [hp] at h
        simp only [Bool.not_false, if_true] at h
        cases h
        exact ⟨rfl, hb, hlook hf, fun _ _ => rfl⟩
      | true =>
        rw [hp] at h
        simp only [Bool.not_true, Bool.false_eq_true, if_false] at h
        simp only [pstep, Bool.true_eq_false, if_false, vstep]
        have hm : ctEqPrefix row.data d row.dataSize.toNat = true ↔ (viewRow row).secret <+: d := by
          rw [ctEqPrefix_iff]
          have e1 : row.dataSize.toNat ≤ row.data.length := by rw [hr.data_len]; exact hr.size_le
          show _ ↔ row.data.take row.dataSize.toNat <+: d
          constructor
          · rintro ⟨_, _, e⟩
            rw [e]
            exact List.take_prefix _ _
          · intro e
            have hlen : (row.data.take row.dataSize.toNat).length = row.dataSize.toNat := by rw [List.length_take]; omega
            refine ⟨e1, by have := e.length_le; omega, ?_⟩
            have := List.prefix_iff_eq_take.mp e
            rw [hlen] at this
            exact this
        by_cases hpx : ctEqPrefix row.data d row.dataSize.toNat = true
        · rw [hpx] at h
          simp only [Bool.not_true, Bool.false_eq_true, if_false] at h
          rw [if_pos (hb id row hf), updateLeaf_ok (by exact hr.size_le)] at h
          simp only [Out.bind_ok] at h
          cases h
          rw [if_pos (hm.mp hpx)]
          exact ⟨rfl, backed_insert hb (.inr rfl), look_insert, fun k hk => look_insert_ne hk⟩
        · have hpx' : ctEqPrefix row.data d row.dataSize.toNat = false := by simpa using hpx
          rw [hpx'] at h
          simp only [Bool.not_false, if_true] at h
          cases h
          rw [if_neg (fun e => hpx (hm.mpr e))]
          exact ⟨rfl, hb, hlook hf, fun _ _ => rfl⟩
  | tries =>
    simp only [triesReq] at h
    cases hf : db.find id with
    | none =>
      rw [hf] at h
      cases h
      rw [hlook0 hf]
      exact ⟨rfl, hb, rfl, fun _ _ => rfl⟩
    | some row =>
      rw [hf] at h
      cases h
      rw [hlook hf]
      exact ⟨rfl, hb, rfl, fun _ _ => rfl⟩
  | unset => exact absurd hv'.2 (by simp)

/-- A validated entry ends normally and does to its account what `pstep` says. -/
theorem run_view {prims : Prims} {path : Bytes → Bool} {db : DB} {l : Log} (hi : Inv prims db) (hb : Backed db) (hv : validate l = none) :
    ∃ db', run prims path db l = .ok (db', (pstep (path l.id) (look db l.id) l.req).2) ∧ Inv prims db' ∧ Backed db' ∧
      look db' l.id = (pstep (path l.id) (look db l.id) l.req).1 ∧ ∀ k, k ≠ l.id → look db' k = look db k := by
  obtain ⟨db', r, hrun, hi'⟩ := run_inv path l hi hv
  obtain ⟨h1, h2, h3, h4⟩ := view_step hi hb hv hrun
  exact ⟨db', by rw [← h1]; exact hrun, hi', h2, h3, h4⟩

end Svr.DB2
