import Verif.Spec.Vault2

/-!
# Lemmas about the SVR2 database model

The database reached from an empty one by validated entries is always `rep P vs` for a map `vs` of
vaults, and running an entry on `rep P vs` is running the vault specification.
-/

namespace Svr.DB2
open Spec2

/-- The raw row (with its integrity hash) that represents a vault. -/
def concRaw (v : Vault) : Row :=
  { state := if v.exposed then AVAILABLE else POPULATED
    tries := UInt8.ofNat v.left
    dataSize := UInt8.ofNat v.secret.length
    data := padTo MAX_DATA_SIZE v.secret
    pin := v.pin
    leaf := [] }

def vaultBytes (id : Bytes) (v : Vault) : Bytes :=
  id ++ be32 (if v.exposed then 2 else 1) ++ be32 v.left ++ be32 v.secret.length
    ++ padTo MAX_DATA_SIZE v.secret ++ v.pin

def conc (P : Prims) (id : Bytes) (v : Vault) : Row :=
  { concRaw v with leaf := hashFrom (P.sip16 (vaultBytes id v)) }

/-- Vaults inside the advertised limits. -/
structure VWF (v : Vault) : Prop where
  left_pos : 1 ≤ v.left
  left_le : v.left ≤ 255
  sec_ge : 16 ≤ v.secret.length
  sec_le : v.secret.length ≤ 48
  pin_len : v.pin.length = 32

def rep (P : Prims) (vs : OMap Bytes Vault) : DB := vs.mapV (conc P)

theorem find_rep (P : Prims) (vs : OMap Bytes Vault) (id : Bytes) :
    (rep P vs).find id = (vs.find id).map (conc P id) := OMap.find_mapV _ _ _

theorem rep_insert (P : Prims) (vs : OMap Bytes Vault) (id : Bytes) (v : Vault) :
    rep P (vs.insert id v) = (rep P vs).insert id (conc P id v) := by
  apply OMap.ext_find; intro k
  rw [find_rep, OMap.find_insert, OMap.find_insert, find_rep]
  split
  · rename_i h; subst h; rfl
  · rfl

theorem rep_erase (P : Prims) (vs : OMap Bytes Vault) (id : Bytes) :
    rep P (vs.erase id) = (rep P vs).erase id := by
  apply OMap.ext_find; intro k
  rw [find_rep, OMap.find_erase, OMap.find_erase, find_rep]
  split <;> rfl

theorem u8_ofNat_toNat {n : Nat} (h : n ≤ 255) : (UInt8.ofNat n).toNat = n := by
  rw [UInt8.toNat_ofNat']; omega

theorem take_padTo {n : Nat} {s : Bytes} : (padTo n s).take s.length = s := padTo_take

/-- Updating the leaf of a row built from a vault gives the representing row. -/
theorem updateLeaf_conc (P : Prims) (id : Bytes) (v : Vault) (h : VWF v) (l : Bytes) :
    updateLeaf P id { concRaw v with leaf := l } = .ok (conc P id v) := by
  have h1 : (UInt8.ofNat v.secret.length).toNat = v.secret.length := u8_ofNat_toNat (by have := h.sec_le; omega)
  have h2 : (UInt8.ofNat v.left).toNat = v.left := u8_ofNat_toNat h.left_le
  have h3 : ¬ (v.secret.length > MAX_DATA_SIZE) := by have := h.sec_le; simp [MAX_DATA_SIZE]; omega
  have h4 : (if v.exposed then AVAILABLE else POPULATED).toNat = if v.exposed then 2 else 1 := by
    cases v.exposed <;> rfl
  simp only [updateLeaf, hashRow, rowBytes, concRaw, h1, h2, h3, h4, if_false, take_padTo,
    Out.bind_ok, Out.pure_eq, conc, vaultBytes]

theorem updateLeaf_self (P : Prims) (id : Bytes) (v : Vault) (h : VWF v) :
    updateLeaf P id (conc P id v) = .ok (conc P id v) := updateLeaf_conc P id v h _

theorem verify_conc (P : Prims) (path : Bytes → Bool) (id : Bytes) (v : Vault) (h : VWF v) :
    verify P path id (conc P id v) = .ok (path id) := by
  have := updateLeaf_self P id v h
  unfold updateLeaf at this
  unfold verify
  cases hh : hashRow P id (conc P id v) with
  | abort => rw [hh] at this; cases this
  | ub => rw [hh] at this; cases this
  | ok x =>
    rw [hh] at this
    simp only [Out.bind_ok, Out.pure_eq, Out.ok.injEq] at this
    have h2 := congrArg Row.leaf this
    simp only at h2
    have : ctEq (hashFrom x) (conc P id v).leaf = true := by rw [ctEq_iff, h2]
    simp [this]

theorem copyInto_ok {n : Nat} {s : Bytes} (h : s.length ≤ n) :
    copyInto n (zeros n) s = .ok (padTo n s) := by
  have : ¬ s.length > n := by omega
  simp [copyInto, this, padTo, zeros]

theorem u32_toUInt8 (n : UInt32) (h : n.toNat ≤ 255) : n.toUInt8 = UInt8.ofNat n.toNat := by
  apply UInt8.toNat_inj.mp
  rw [UInt32.toNat_toUInt8, u8_ofNat_toNat h]; omega

theorem backup_rep (P : Prims) (vs : OMap Bytes Vault) (id d p : Bytes) (n : UInt32)
    (hwf : VWF ⟨d, p, n.toNat, false⟩) :
    backup P (rep P vs) id d p n = .ok (rep P (vs.insert id ⟨d, p, n.toNat, false⟩), .backup) := by
  have hd := hwf.sec_le
  have hp := hwf.pin_len
  have hn := hwf.left_le
  simp only at hd hp hn
  unfold backup
  simp only [Row.clear]
  rw [copyInto_ok (n := MAX_DATA_SIZE) (by simpa [MAX_DATA_SIZE] using hd),
    copyInto_ok (n := PIN_SIZE) (by simp [PIN_SIZE, hp])]
  have hpin : padTo PIN_SIZE p = p := by simp [padTo, PIN_SIZE, hp, zeros]
  simp only [Out.bind_ok, hpin]
  rw [u32_toUInt8 n hn]
  have := updateLeaf_conc P id ⟨d, p, n.toNat, false⟩ hwf ((rep P vs).find id |>.getD newRow).leaf
  simp only [concRaw, Bool.false_eq_true, if_false] at this
  rw [this]
  simp [rep_insert]

theorem conc_state_ne (P : Prims) (id : Bytes) (v : Vault) :
    ((conc P id v).state ≠ AVAILABLE) ↔ v.exposed = false := by
  cases h : v.exposed <;> simp [conc, concRaw, h, AVAILABLE, POPULATED]

theorem u8_sub_one {n : Nat} (h1 : 1 ≤ n) (h2 : n ≤ 255) :
    UInt8.ofNat n - 1 = UInt8.ofNat (n - 1) := by
  apply UInt8.toNat_inj.mp
  rw [UInt8.toNat_sub, u8_ofNat_toNat h2, u8_ofNat_toNat (by omega : n - 1 ≤ 255)]
  have : (1 : UInt8).toNat = 1 := rfl
  rw [this]; omega

theorem restore_rep (P : Prims) (vs : OMap Bytes Vault) (id g : Bytes)
    (hwf : ∀ v, vs.find id = some v → VWF v) :
    restore P (fun _ => true) (rep P vs) id g =
      .ok (rep P (vs.set id (vstep (vs.find id) (.restore g)).1), (vstep (vs.find id) (.restore g)).2) := by
  unfold restore
  rw [find_rep]
  cases hf : vs.find id with
  | none =>
    simp only [Option.map_none, vstep, OMap.set]
    rw [OMap.erase_of_find_none hf]
  | some v =>
    have h := hwf v hf
    simp only [Option.map_some, vstep]
    by_cases he : v.exposed = false
    · rw [if_pos ((conc_state_ne P id v).mpr he), if_pos he]
      simp [OMap.set, OMap.insert_of_find hf]
    · rw [if_neg (fun h' => he ((conc_state_ne P id v).mp h')), if_neg he, verify_conc P _ id v h]
      simp only [Out.bind_ok, Bool.not_true, Bool.false_eq_true, if_false]
      by_cases hg : g = v.pin
      · have : ctEq g (conc P id v).pin = true := by rw [ctEq_iff]; exact hg
        rw [if_pos this, if_pos hg]
        have h1 : (UInt8.ofNat v.secret.length).toNat = v.secret.length :=
          u8_ofNat_toNat (by have := h.sec_le; omega)
        have h2 : (UInt8.ofNat v.left).toNat = v.left := u8_ofNat_toNat h.left_le
        simp [OMap.set, OMap.insert_of_find hf, conc, concRaw, h1, h2, take_padTo]
      · have : ¬ (ctEq g (conc P id v).pin = true) := by rw [ctEq_iff]; exact hg
        rw [if_neg this, if_neg hg]
        have h1 : (conc P id v).tries - 1 = UInt8.ofNat (v.left - 1) := u8_sub_one h.left_pos h.left_le
        simp only [h1]
        by_cases hl : v.left ≤ 1
        · have : v.left - 1 = 0 := by omega
          rw [if_pos hl, this]
          simp [OMap.set, rep_erase]
        · have hne : ¬ (UInt8.ofNat (v.left - 1) = 0) := by
            intro h'
            have := congrArg UInt8.toNat h'
            rw [u8_ofNat_toNat (by have := h.left_le; omega)] at this
            have h0 : (0 : UInt8).toNat = 0 := rfl
            omega
          rw [if_neg hl, if_neg hne]
          have hw' : VWF { v with left := v.left - 1 } :=
            ⟨by simp only; omega, by have := h.left_le; simp only; omega, h.sec_ge, h.sec_le, h.pin_len⟩
          have := updateLeaf_conc P id { v with left := v.left - 1 } hw' (conc P id v).leaf
          have e : ({ conc P id v with tries := UInt8.ofNat (v.left - 1) } : Row) =
            { concRaw { v with left := v.left - 1 } with leaf := (conc P id v).leaf } := rfl
          rw [e, this]
          have h2 : (UInt8.ofNat (v.left - 1)).toNat = v.left - 1 := u8_ofNat_toNat (by have := h.left_le; omega)
          simp [OMap.set, rep_insert, conc, concRaw, h2]

theorem prefix_match (v : Vault) (h : v.secret.length ≤ 48) (d : Bytes) :
    ctEqPrefix (padTo MAX_DATA_SIZE v.secret) d v.secret.length = true ↔ v.secret <+: d := by
  rw [ctEqPrefix_iff, take_padTo, padTo_length (by simpa [MAX_DATA_SIZE] using h)]
  constructor
  · rintro ⟨_, _, h3⟩
    rw [List.prefix_iff_eq_take]; exact h3
  · intro hp
    exact ⟨by simpa [MAX_DATA_SIZE] using h, hp.length_le, List.prefix_iff_eq_take.mp hp⟩

theorem expose_rep (P : Prims) (vs : OMap Bytes Vault) (id d : Bytes)
    (hwf : ∀ v, vs.find id = some v → VWF v) :
    expose P (fun _ => true) (rep P vs) id d =
      .ok (rep P (vs.set id (vstep (vs.find id) (.expose d)).1), (vstep (vs.find id) (.expose d)).2) := by
  unfold expose
  rw [find_rep]
  cases hf : vs.find id with
  | none =>
    simp only [Option.map_none, vstep, OMap.set]
    rw [OMap.erase_of_find_none hf]
  | some v =>
    have h := hwf v hf
    simp only [Option.map_some, vstep]
    rw [verify_conc P _ id v h]
    simp only [Out.bind_ok, Bool.not_true, Bool.false_eq_true, if_false]
    have h1 : (conc P id v).dataSize.toNat = v.secret.length := u8_ofNat_toNat (by have := h.sec_le; omega)
    have hd : (conc P id v).data = padTo MAX_DATA_SIZE v.secret := rfl
    have hm : ctEqPrefix (conc P id v).data d (conc P id v).dataSize.toNat = true ↔ v.secret <+: d := by
      rw [h1, hd]; exact prefix_match v h.sec_le d
    by_cases hp : v.secret <+: d
    · rw [hm.mpr hp, if_pos hp]
      have hst : (conc P id v).state = POPULATED ∨ (conc P id v).state = AVAILABLE := by
        cases he : v.exposed <;> simp [conc, concRaw, he]
      simp only [Bool.not_true, Bool.false_eq_true, if_false]
      rw [if_pos hst]
      have hw' : VWF { v with exposed := true } := ⟨h.left_pos, h.left_le, h.sec_ge, h.sec_le, h.pin_len⟩
      have := updateLeaf_conc P id { v with exposed := true } hw' (conc P id v).leaf
      have e : ({ conc P id v with state := AVAILABLE } : Row) =
            { concRaw { v with exposed := true } with leaf := (conc P id v).leaf } := rfl
      rw [e, this]
      simp [OMap.set, rep_insert]
    · have : ctEqPrefix (conc P id v).data d (conc P id v).dataSize.toNat = false := by
        rw [← Bool.not_eq_true, hm]; exact hp
      rw [this, if_neg hp]
      simp [OMap.set, OMap.insert_of_find hf]

/-- Everything stored is within limits. -/
def AllWF (vs : OMap Bytes Vault) : Prop := ∀ id v, vs.find id = some v → VWF v

theorem validate_none_id {log : Log} (h : validate log = none) : log.id.length = 16 := by
  unfold validate at h
  split at h
  · cases h
  · rename_i h'; simpa [BACKUP_ID_SIZE] using h'

theorem validate_backup {id d p : Bytes} {n : UInt32} (h : validate ⟨id, .backup d p n⟩ = none) :
    VWF ⟨d, p, n.toNat, false⟩ := by
  unfold validate at h
  obtain ⟨_, h⟩ := ite_some_eq_none h
  obtain ⟨h1, h⟩ := ite_some_eq_none h
  obtain ⟨h2, h⟩ := ite_some_eq_none h
  obtain ⟨h3, h⟩ := ite_some_eq_none h
  obtain ⟨h4, h⟩ := ite_some_eq_none h
  obtain ⟨h5, h⟩ := ite_some_eq_none h
  simp only [PIN_SIZE, MAX_DATA_SIZE, MIN_DATA_SIZE, MAX_ALLOWED_MAX_TRIES, MIN_ALLOWED_MAX_TRIES,
    ne_eq, not_not] at h1 h2 h3 h4 h5
  exact ⟨by simp only; omega, by simp only; omega, by simp only; omega, by simp only; omega, h1⟩

/-- Simulation: one validated entry on a represented database is one step of the specification. -/
theorem run_rep (P : Prims) (vs : OMap Bytes Vault) (log : Log) (hwf : AllWF vs)
    (hv : validate log = none) :
    run P (fun _ => true) (rep P vs) log =
      .ok (rep P (machine.run1 vs (log.id, log.req)).1, (machine.run1 vs (log.id, log.req)).2) := by
  unfold run
  have hid : (log.id.length == BACKUP_ID_SIZE) = true := by simp [validate_none_id hv, BACKUP_ID_SIZE]
  simp only [hv, beq_self_eq_true, hid, Out.check_true, Out.bind_ok]
  unfold KMachine.run1 machine
  obtain ⟨id, req⟩ := log
  cases req with
  | backup d p n =>
    simp only [vstep]
    exact backup_rep P vs id d p n (validate_backup hv)
  | restore g => exact restore_rep P vs id g (hwf id)
  | delete =>
    simp only [delete, find_rep]
    cases hf : vs.find id with
    | none => simp [vstep, OMap.set, OMap.erase_of_find_none hf]
    | some v => simp [vstep, OMap.set, rep_erase]
  | expose d => exact expose_rep P vs id d (hwf id)
  | tries =>
    simp only [triesReq, find_rep]
    cases hf : vs.find id with
    | none => simp [vstep, OMap.set, OMap.erase_of_find_none hf]
    | some v =>
      have h2 : (UInt8.ofNat v.left).toNat = v.left := u8_ofNat_toNat (hwf id v hf).left_le
      cases he : v.exposed <;>
        simp [vstep, OMap.set, OMap.insert_of_find hf, conc, concRaw, h2, he, AVAILABLE, POPULATED]
  | unset =>
    simp only [vstep]
    rw [OMap.set_find]; rfl

theorem vstep_wf {o : Option Vault} {q : Req} {id : Bytes} (ho : ∀ v, o = some v → VWF v)
    (hv : validate ⟨id, q⟩ = none) : ∀ v, (vstep o q).1 = some v → VWF v := by
  intro v h
  cases q with
  | backup d p n =>
    simp only [vstep, Option.some.injEq] at h; subst h
    exact validate_backup hv
  | restore g =>
    cases o with
    | none => simp [vstep] at h
    | some w =>
      have hw := ho w rfl
      simp only [vstep] at h
      split at h
      · simp only [Option.some.injEq] at h; subst h; exact hw
      · split at h
        · simp only [Option.some.injEq] at h; subst h; exact hw
        · split at h
          · simp at h
          · simp only [Option.some.injEq] at h; subst h
            exact ⟨by simp only; omega, by have := hw.left_le; simp only; omega, hw.sec_ge, hw.sec_le, hw.pin_len⟩
  | delete => simp [vstep] at h
  | expose d =>
    cases o with
    | none => simp [vstep] at h
    | some w =>
      have hw := ho w rfl
      simp only [vstep] at h
      split at h
      · simp only [Option.some.injEq] at h; subst h
        exact ⟨hw.left_pos, hw.left_le, hw.sec_ge, hw.sec_le, hw.pin_len⟩
      · simp only [Option.some.injEq] at h; subst h; exact hw
  | tries =>
    cases o with
    | none => simp [vstep] at h
    | some w => simp only [vstep, Option.some.injEq] at h; subst h; exact ho w rfl
  | unset => simp only [vstep] at h; exact ho v h

theorem run1_wf {vs : OMap Bytes Vault} {log : Log} (hwf : AllWF vs) (hv : validate log = none) :
    AllWF (machine.run1 vs (log.id, log.req)).1 := by
  intro id v h
  simp only [KMachine.run1, machine] at h
  rw [OMap.find_set] at h
  split at h
  · exact vstep_wf (id := log.id) (hwf log.id) hv v h
  · exact hwf id v h

def pairs (logs : List Log) : List (Bytes × Req) := logs.map (fun l => (l.id, l.req))

/-- Simulation for histories. -/
theorem runAll_rep (P : Prims) (logs : List Log) (vs : OMap Bytes Vault) (hwf : AllWF vs)
    (hv : ∀ l ∈ logs, validate l = none) :
    runAll P (fun _ => true) (rep P vs) logs =
      .ok (rep P (machine.runAll vs (pairs logs)).1, (machine.runAll vs (pairs logs)).2)
    ∧ AllWF (machine.runAll vs (pairs logs)).1 := by
  induction logs generalizing vs with
  | nil => exact ⟨rfl, hwf⟩
  | cons l ls ih =>
    have hl := hv l List.mem_cons_self
    have ih' := ih (machine.run1 vs (l.id, l.req)).1 (run1_wf hwf hl)
      (fun x hx => hv x (List.mem_cons_of_mem _ hx))
    constructor
    · unfold runAll
      rw [run_rep P vs l hwf hl]
      simp only [Out.bind_ok]
      rw [ih'.1]
      rfl
    · exact ih'.2

theorem rep_empty (P : Prims) : rep P OMap.empty = empty := rfl

theorem allWF_empty : AllWF OMap.empty := by intro id v h; simp at h

theorem rowRun_eq_vrun (id : Bytes) (o : Option Vault) (qs : List Req) :
    machine.rowRun id o qs = vrun o qs := by
  induction qs generalizing o with
  | nil => rfl
  | cons q qs ih => simp [KMachine.rowRun, vrun, machine] at ih ⊢; rw [ih]; exact ⟨rfl, rfl⟩

end Svr.DB2
