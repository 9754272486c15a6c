import Verif.Forget
import Verif.DB2Rows
import Verif.DB3Rows
import Verif.DB4Load
import Verif.DB5Rows
import Verif.Props.DB3
import Verif.Props.DB4
import Verif.Props.DB5

/-!
# C88: what is removed or overwritten is forgotten

A history is a list of entries, each with the outcome of the integrity walks during it. `gone`: once an account is absent, the database is, row by
row and leaf by leaf, the one of the same history without the account, as if it had never been used. `overwritten`: after a Backup, Create or
Upload, the database is the one of the same history without what was done to the account before. Everything sent to other replicas and every later
answer is computed from this database. (Bytes of memory that is free again are the matter of C73.)
-/

namespace Svr.Props.Forget
open Svr

/-- One entry of a history and the outcome of the integrity walks during it. -/
abbrev Step (L : Type) := (Bytes → Bool) × L

/-! ## SVR2 -/

section
variable {P : Prims}

/-- Apply one entry. -/
def run2 (P : Prims) (db : Svr.DB2.DB) (e : Step Svr.DB2.Log) : Out (Svr.DB2.DB × Svr.DB2.Resp) := Svr.DB2.run P e.1 db e.2

theorem local2 (P : Prims) (e : Step Svr.DB2.Log) : ∃ f : Option Svr.DB2.Row → Out (Option Svr.DB2.Row × Svr.DB2.Resp), ∀ db : Svr.DB2.DB,
    run2 P db e = (do let (o, r) ← f (db.find e.2.id); pure (db.set e.2.id o, r)) := Svr.DB2.run_local P e.1 e.2

/-- **C88 (SVR2)**: an absent account leaves nothing behind. -/
theorem C88_svr2_gone {a : Bytes} {es : List (Step Svr.DB2.Log)} {db db' : Svr.DB2.DB} {rs : List Svr.DB2.Resp} (h0 : db.find a = none)
    (h : runList (run2 P) db es = .ok (db', rs)) (ha : db'.find a = none) :
    runList (run2 P) db (without (·.2.id) a es) = .ok (db', answersWithout (·.2.id) a es rs) :=
  run_without_same (get := fun s k => s.find k) (put := fun s k o => s.set k o) (fun _ _ _ => OMap.find_set_self _ _ _)
    (fun _ _ _ _ hk => OMap.find_set_ne _ _ hk) (local2 P) (fun _ _ => OMap.ext_find) a h (by rw [h0, ha])

/-- **C88 (SVR2)**: a Backup leaves nothing of what the account held before. -/
theorem C88_svr2_overwritten {e : Step Svr.DB2.Log} {d p : Bytes} {n : UInt32} (he : e.2.req = .backup d p n) {es : List (Step Svr.DB2.Log)}
    {db db1 db2 : Svr.DB2.DB} {rs : List Svr.DB2.Resp} {r : Svr.DB2.Resp} (h1 : runList (run2 P) db es = .ok (db1, rs)) (h2 : run2 P db1 e = .ok (db2, r)) :
    runList (run2 P) db (without (·.2.id) e.2.id es ++ [e]) = .ok (db2, answersWithout (·.2.id) e.2.id es rs ++ [r]) := by
  refine run_without_before (get := fun s k => s.find k) (put := fun s k o => s.set k o) (fun _ _ _ => OMap.find_set_self _ _ _)
    (fun _ _ _ _ hk => OMap.find_set_ne _ _ hk) (local2 P) h1 h2 ?_
  intro t ht _
  obtain ⟨path, id, req⟩ := e
  simp only at he ht
  subst he
  have hins : ∀ row, t.insert id row = db1.insert id row := fun row => OMap.ext_find fun k => by
    rw [OMap.find_insert, OMap.find_insert]
    split
    · rfl
    · rename_i hk; exact ht k fun e => hk e.symm
  simp only [run2, Svr.DB2.run, Svr.DB2.backup, Svr.DB2.updateLeaf, Svr.DB2.hashRow, Svr.DB2.rowBytes, Svr.DB2.Row.clear, hins]

/-- **C88 (SVR2)**: after a Delete the account is absent, whatever the integrity walk says. -/
theorem C88_svr2_deleted {path : Bytes → Bool} {db db' : Svr.DB2.DB} {a : Bytes} {r : Svr.DB2.Resp} (h : Svr.DB2.run P path db ⟨a, .delete⟩ = .ok (db', r)) :
    db'.find a = none := by
  simp only [Svr.DB2.run] at h
  obtain ⟨_, _, h⟩ := Out.bind_eq_ok.mp h
  obtain ⟨_, _, h⟩ := Out.bind_eq_ok.mp h
  simp only [Svr.DB2.delete] at h
  split at h <;> cases h
  · assumption
  · exact OMap.find_erase_self _ _

/-- **C88 (SVR2)**: if an exposed backup is reported missing, the guesses are used up and it is absent. -/
theorem C88_svr2_spent {path path' : Bytes → Bool} {db db' : Svr.DB2.DB} {a pin : Bytes} {n : Nat}
    (ht : Svr.DB2.run P path db ⟨a, .tries⟩ = .ok (db, .tries true n true)) (h : Svr.DB2.run P path' db ⟨a, .restore pin⟩ = .ok (db', .restore .missing [] 0)) :
    db'.find a = none := by
  simp only [Svr.DB2.run] at h ht
  obtain ⟨_, _, h⟩ := Out.bind_eq_ok.mp h
  obtain ⟨_, _, h⟩ := Out.bind_eq_ok.mp h
  obtain ⟨_, _, ht⟩ := Out.bind_eq_ok.mp ht
  obtain ⟨_, _, ht⟩ := Out.bind_eq_ok.mp ht
  simp only [Svr.DB2.triesReq] at ht
  simp only [Svr.DB2.restore] at h
  cases hf : db.find a with
  | none => rw [hf] at ht; cases ht
  | some row =>
    rw [hf] at ht h
    simp only [Out.ok.injEq, Prod.mk.injEq, Svr.DB2.Resp.tries.injEq, true_and, beq_iff_eq] at ht
    simp only [ht.2, ne_eq, not_true_eq_false, if_false] at h
    obtain ⟨ok, _, h⟩ := Out.bind_eq_ok.mp h
    split at h
    · cases h
    split at h
    · cases h
    split at h
    · cases h
      exact OMap.find_erase_self _ _
    · obtain ⟨_, _, h⟩ := Out.bind_eq_ok.mp h
      cases h

/-- Two accounts. -/
def idA : Bytes := List.replicate 16 1
def idB : Bytes := List.replicate 16 2

/-- Hypotheses of the SVR2 theorems are met: account `idA` is backed up, `idB` is backed up, `idA` is deleted. -/
example : ∃ (es : List (Step Svr.DB2.Log)) (db' : Svr.DB2.DB) (rs : List Svr.DB2.Resp), runList (run2 ⟨id, id⟩) Svr.DB2.empty es = .ok (db', rs) ∧
    db'.find idA = none ∧ db'.find idB ≠ none ∧ (without (·.2.id) idA es).length = 1 ∧ es.length = 3 :=
  ⟨[(fun _ => true, ⟨idA, .backup (zeros 16) (zeros 32) 3⟩), (fun _ => true, ⟨idB, .backup (zeros 16) (zeros 32) 3⟩), (fun _ => true, ⟨idA, .delete⟩)],
    _, _, rfl, by decide, by decide, by decide, by decide⟩

end

/-! ## SVR3 -/

section
variable {P : Svr.DB3.Prims3}

/-- Apply one entry. -/
def run3 (P : Svr.DB3.Prims3) (db : Svr.DB3.DB) (e : Step Svr.DB3.Log) : Out (Svr.DB3.DB × Svr.DB3.Resp) := Svr.DB3.run P e.1 db e.2

theorem local3 (P : Svr.DB3.Prims3) (e : Step Svr.DB3.Log) : ∃ f : Option Svr.DB3.Row → Out (Option Svr.DB3.Row × Svr.DB3.Resp), ∀ db : Svr.DB3.DB,
    run3 P db e = (do let (o, r) ← f (db.find e.2.id); pure (db.set e.2.id o, r)) := Svr.DB3.run_local P e.1 e.2

/-- **C88 (SVR3)**: an absent account leaves nothing behind. -/
theorem C88_svr3_gone {a : Bytes} {es : List (Step Svr.DB3.Log)} {db db' : Svr.DB3.DB} {rs : List Svr.DB3.Resp} (h0 : db.find a = none)
    (h : runList (run3 P) db es = .ok (db', rs)) (ha : db'.find a = none) :
    runList (run3 P) db (without (·.2.id) a es) = .ok (db', answersWithout (·.2.id) a es rs) :=
  run_without_same (get := fun s k => s.find k) (put := fun s k o => s.set k o) (fun _ _ _ => OMap.find_set_self _ _ _)
    (fun _ _ _ _ hk => OMap.find_set_ne _ _ hk) (local3 P) (fun _ _ => OMap.ext_find) a h (by rw [h0, ha])

/-- **C88 (SVR3)**: an answered Create leaves nothing of what the account held before. -/
theorem C88_svr3_overwritten {e : Step Svr.DB3.Log} {ev : Bytes} {es : List (Step Svr.DB3.Log)} {db db1 db2 : Svr.DB3.DB} {rs : List Svr.DB3.Resp}
    (h1 : runList (run3 P) db es = .ok (db1, rs)) (h2 : run3 P db1 e = .ok (db2, .create .ok ev)) :
    runList (run3 P) db (without (·.2.id) e.2.id es ++ [e]) = .ok (db2, answersWithout (·.2.id) e.2.id es rs ++ [.create .ok ev]) := by
  refine run_without_before (get := fun s k => s.find k) (put := fun s k o => s.set k o) (fun _ _ _ => OMap.find_set_self _ _ _)
    (fun _ _ _ _ hk => OMap.find_set_ne _ _ hk) (local3 P) h1 h2 ?_
  intro t ht _
  obtain ⟨path, id, req, key⟩ := e
  simp only at ht
  have hins : ∀ row, t.insert id row = db1.insert id row := fun row => OMap.ext_find fun k => by
    rw [OMap.find_insert, OMap.find_insert]
    split
    · rfl
    · rename_i hk; exact ht k fun e => hk e.symm
  simp only [run3, Svr.DB3.run] at h2 ⊢
  obtain ⟨_, hc, h2⟩ := Out.bind_eq_ok.mp h2
  have hid : strToArr Svr.DB3.BACKUP_ID_SIZE id = some id := by
    have hl : id.length = Svr.DB3.BACKUP_ID_SIZE := by
      by_contra hl
      simp [Svr.DB3.validate, hl, Out.check] at hc
    exact Svr.DB3.strToArr_self hl
  simp only [hid] at h2 ⊢
  rw [hc]
  simp only [Out.bind_ok]
  cases req with
  | create n b =>
    simp only [Svr.DB3.create] at h2 ⊢
    split at h2
    · cases h2
    split at h2
    · cases h2
    split at h2
    · cases h2
    simp only [*]
  | evaluate b =>
    simp only [Svr.DB3.evaluate, Out.pure_eq, Out.ok.injEq] at h2
    repeat' split at h2
    all_goals cases h2
  | remove =>
    simp only [Svr.DB3.remove, Out.pure_eq, Out.ok.injEq] at h2
    split at h2 <;> cases h2
  | query =>
    simp only [Svr.DB3.query, Out.pure_eq, Out.ok.injEq] at h2
    split at h2 <;> cases h2
  | unset => cases h2

/-- **C88 (SVR3)**: after a Remove the account is absent. -/
theorem C88_svr3_removed {path : Bytes → Bool} {db db' : Svr.DB3.DB} {a key : Bytes} {r : Svr.DB3.Resp} (h : Svr.DB3.run P path db ⟨a, .remove, key⟩ = .ok (db', r)) :
    db'.find a = none := by
  simp only [Svr.DB3.run] at h
  obtain ⟨_, hc, h⟩ := Out.bind_eq_ok.mp h
  have hl : a.length = Svr.DB3.BACKUP_ID_SIZE := by
    by_contra hl
    simp [Svr.DB3.validate, hl, Out.check] at hc
  rw [Svr.DB3.strToArr_self hl] at h
  simp only [Svr.DB3.remove, Out.pure_eq, Out.ok.injEq] at h
  split at h <;> cases h
  · assumption
  · exact OMap.find_erase_self _ _

/-- **C88 (SVR3)**: after an evaluation that leaves no tries the account is absent. -/
theorem C88_svr3_spent {path : Bytes → Bool} {db db' : Svr.DB3.DB} {a b key ev : Bytes}
    (h : Svr.DB3.run P path db ⟨a, .evaluate b, key⟩ = .ok (db', .evaluate .ok ev 0)) : db'.find a = none := by
  simp only [Svr.DB3.run] at h
  obtain ⟨_, hc, h⟩ := Out.bind_eq_ok.mp h
  have hl : a.length = Svr.DB3.BACKUP_ID_SIZE := by
    by_contra hl
    simp [Svr.DB3.validate, hl, Out.check] at hc
  rw [Svr.DB3.strToArr_self hl] at h
  simp only [Svr.DB3.evaluate, Out.pure_eq, Out.ok.injEq] at h
  repeat' split at h
  all_goals simp only [Prod.mk.injEq, Svr.DB3.Resp.evaluate.injEq, reduceCtorEq, and_false, false_and] at h
  · rw [← h.1]; exact OMap.find_erase_self _ _
  · rename_i hn
    exact absurd (UInt8.toNat_inj.mp h.2.2.2) hn

/-- Hypotheses of the SVR3 theorems are met: `ida` is created twice and its tries used up. -/
example : ∃ (es : List (Step Svr.DB3.Log)) (db' : Svr.DB3.DB) (rs : List Svr.DB3.Resp), runList (run3 Props.DB3.P0) Svr.DB3.empty es = .ok (db', rs) ∧
    db'.find Props.DB3.ida = none ∧ db'.find Props.DB3.idb ≠ none ∧ (without (·.2.id) Props.DB3.ida es).length = 1 ∧ es.length = 4 :=
  ⟨[(fun _ => true, ⟨Props.DB3.ida, .create 3 Props.DB3.elt, Props.DB3.key⟩), (fun _ => true, ⟨Props.DB3.ida, .create 1 Props.DB3.elt, Props.DB3.key⟩),
    (fun _ => true, ⟨Props.DB3.idb, .create 3 Props.DB3.elt, Props.DB3.key⟩), (fun _ => true, ⟨Props.DB3.ida, .evaluate Props.DB3.elt, []⟩)],
    _, _, rfl, by decide, by decide, by decide, by decide⟩

end

/-! ## SVR4 -/

section
variable {P : Svr.DB4.Prims4}

/-- Apply one entry. -/
def run4 (P : Svr.DB4.Prims4) (db : Svr.DB4.DB) (e : Step Svr.DB4.Log) : Out (Svr.DB4.DB × Svr.DB4.Effect) := Svr.DB4.run P e.1 db e.2

theorem local4 (P : Svr.DB4.Prims4) (e : Step Svr.DB4.Log) : ∃ f : Option Svr.DB4.Row × Option Svr.DB4.Rot → Out ((Option Svr.DB4.Row × Option Svr.DB4.Rot) × Svr.DB4.Effect),
    ∀ db : Svr.DB4.DB, run4 P db e = (do let (o, r) ← f (Svr.DB4.get db e.2.id); pure (Svr.DB4.put db e.2.id o, r)) := Svr.DB4.run_local P e.1 e.2

theorem ext4 (s t : Svr.DB4.DB) (h : ∀ k, Svr.DB4.get s k = Svr.DB4.get t k) : s = t := by
  obtain ⟨r1, o1⟩ := s
  obtain ⟨r2, o2⟩ := t
  rw [OMap.ext_find (m := r1) (m' := r2) fun k => congrArg Prod.fst (h k), OMap.ext_find (m := o1) (m' := o2) fun k => congrArg Prod.snd (h k)]

theorem valid4 {db db' : Svr.DB4.DB} {e : Step Svr.DB4.Log} {r : Svr.DB4.Effect} (h : run4 P db e = .ok (db', r)) : Svr.DB4.validate P e.2 = none := by
  simp only [run4, Svr.DB4.run] at h
  obtain ⟨_, hc, _⟩ := Out.bind_eq_ok.mp h
  by_contra hl
  simp [hl, Out.check] at hc

theorem inv4 (hs : Svr.DB4.SaddOK P) : ∀ {es : List (Step Svr.DB4.Log)} {db db' : Svr.DB4.DB} {rs : List Svr.DB4.Effect}, Svr.DB4.Inv P db →
    runList (run4 P) db es = .ok (db', rs) → Svr.DB4.Inv P db'
  | [], _, _, _, hi, h => by cases h; exact hi
  | e :: es, db, db', rs, hi, h => by
    obtain ⟨⟨d1, r⟩, h1, h⟩ := Out.bind_eq_ok.mp h
    obtain ⟨⟨d2, rs2⟩, h2, h⟩ := Out.bind_eq_ok.mp h
    cases h
    obtain ⟨d1', r', k1, k2, _⟩ := Svr.DB4.run_cases P hs e.1 db e.2 hi (valid4 h1)
    rw [show Svr.DB4.run P e.1 db e.2 = run4 P db e from rfl, h1] at k1
    cases k1
    exact inv4 hs k2 h2

theorem rot_none {db : Svr.DB4.DB} (hi : Svr.DB4.Inv P db) {a : Bytes} (h : db.rows.find a = none) : Svr.DB4.get db a = (none, none) := by
  have := hi a
  rw [h] at this
  simp only [Svr.DB4.get, h]
  rw [show db.rot.find a = none from this]

/-- **C88 (SVR4)**: an absent account leaves nothing behind, not even a pending rotation. -/
theorem C88_svr4_gone (hs : Svr.DB4.SaddOK P) {a : Bytes} {es : List (Step Svr.DB4.Log)} {db db' : Svr.DB4.DB} {rs : List Svr.DB4.Effect} (hr : Svr.DB4.Reach P db)
    (h0 : db.rows.find a = none) (h : runList (run4 P) db es = .ok (db', rs)) (ha : db'.rows.find a = none) :
    runList (run4 P) db (without (·.2.id) a es) = .ok (db', answersWithout (·.2.id) a es rs) :=
  run_without_same Svr.DB4.get_put (fun s k k' o hk => Svr.DB4.get_put_ne s k k' o hk) (local4 P) ext4 a h
    (by rw [rot_none (Svr.DB4.reach_inv hs hr) h0, rot_none (inv4 hs (Svr.DB4.reach_inv hs hr) h) ha])

/-- **C88 (SVR4)**: a Create that sets the number of tries leaves nothing of what the account held before. -/
theorem C88_svr4_overwritten (hs : Svr.DB4.SaddOK P) {e : Step Svr.DB4.Log} {n : UInt32} {oprf auth enc zero : Bytes} {version : UInt32}
    (he : e.2.req = .create n oprf auth enc zero version) (hn : n ≠ 0) {es : List (Step Svr.DB4.Log)} {db db1 db2 : Svr.DB4.DB} {rs : List Svr.DB4.Effect}
    {r : Svr.DB4.Effect} (hr : Svr.DB4.Reach P db) (h1 : runList (run4 P) db es = .ok (db1, rs)) (h2 : run4 P db1 e = .ok (db2, r)) :
    runList (run4 P) db (without (·.2.id) e.2.id es ++ [e]) = .ok (db2, answersWithout (·.2.id) e.2.id es rs ++ [r]) := by
  refine run_without_before Svr.DB4.get_put (fun s k k' o hk => Svr.DB4.get_put_ne s k k' o hk) (local4 P) h1 h2 ?_
  have hv := valid4 h2
  have hi0 := Svr.DB4.reach_inv hs hr
  have hi1 := inv4 hs hi0 h1
  intro t ht hta
  obtain ⟨path, id, req⟩ := e
  simp only at he ht hv hta
  subst he
  have hid : id.length = 16 := by
    by_contra hl
    simp [Svr.DB4.validate, hl] at hv
  have henc : enc.length = 32 := by
    by_contra hl
    simp [Svr.DB4.validate, hid, hl] at hv
  have hlen : ∀ {d : Svr.DB4.DB} {row : Svr.DB4.Row}, Svr.DB4.Inv P d → d.rows.find id = some row → row.enc.length = 32 := by
    intro d row hi hf
    have := hi id
    rw [hf] at this
    exact this.1.enc_len
  have hcopy : ∀ {b : Bytes}, b.length = 32 → Svr.DB4.copyOver b enc = some enc := by
    intro b hb
    rw [Svr.DB4.copyOver, if_neg (by omega), henc, List.drop_eq_nil_of_le (by omega), List.append_nil]
  have hone : ∀ {d : Svr.DB4.DB}, (∀ row, d.rows.find id = some row → row.enc.length = 32) →
      Svr.DB4.create P d id n oprf auth enc zero version = (do
        Out.check (Svr.DB4.okPoint P auth)
        Out.check (Svr.DB4.okScalar P oprf)
        Out.check (Svr.DB4.okScalar P zero)
        pure (⟨d.rows.insert id (Svr.DB4.updateLeaf P id ⟨auth, oprf, enc, zero, version, n.toUInt8, []⟩ none), d.rot.erase id⟩,
          ⟨.create .ok n.toUInt8.toNat, none⟩)) := by
    intro d hd
    have hl : ((d.rows.find id).getD Svr.DB4.newRow).enc.length = 32 := by
      cases hf : d.rows.find id with
      | none => rfl
      | some row => exact hd row hf
    simp only [Svr.DB4.create, hn, and_false, if_false, ne_eq, not_false_eq_true, if_true, hcopy hl, Svr.DB4.updateLeaf, Svr.DB4.rowRaw]
  have hins : ∀ row, t.rows.insert id row = db1.rows.insert id row := fun row => OMap.ext_find fun k => by
    rw [OMap.find_insert, OMap.find_insert]
    split
    · rfl
    · rename_i hk; exact congrArg Prod.fst (ht k fun e => hk e.symm)
  have her : t.rot.erase id = db1.rot.erase id := OMap.ext_find fun k => by
    rw [OMap.find_erase, OMap.find_erase]
    split
    · rfl
    · rename_i hk; exact congrArg Prod.snd (ht k fun e => hk e.symm)
  have hself : strToArr Svr.DB4.BACKUP_ID_SIZE id = some id := by
    exact Svr.DB3.strToArr_self hid
  simp only [run4, Svr.DB4.run, hself]
  rw [hone (fun row hf => hlen hi0 (by rw [← hf]; exact (congrArg Prod.fst hta).symm)), hone (fun row hf => hlen hi1 hf), hins, her]

/-- **C88 (SVR4)**: a Create without a number of tries is one with the number that is left; nothing else of the account is kept. -/
theorem C88_svr4_kept (hs : Svr.DB4.SaddOK P) {path : Bytes → Bool} {db : Svr.DB4.DB} {a oprf auth enc zero : Bytes} {version : UInt32} {row : Svr.DB4.Row}
    (hr : Svr.DB4.Reach P db) (hf : db.rows.find a = some row) :
    Svr.DB4.run P path db ⟨a, .create 0 oprf auth enc zero version⟩ = Svr.DB4.run P path db ⟨a, .create row.tries.toUInt32 oprf auth enc zero version⟩ := by
  have hi := Svr.DB4.reach_inv hs hr a
  rw [hf] at hi
  have hid := hi.1.id_len
  have ht : row.tries ≠ 0 := hi.1.tries_pos
  have hlt := row.tries.toNat_lt
  have hn : row.tries.toUInt32.toNat = row.tries.toNat := by simp
  have hne : row.tries.toUInt32 ≠ 0 := by
    intro e
    apply ht
    have := congrArg UInt32.toNat e
    rw [hn] at this
    exact UInt8.toNat_inj.mp this
  have hv : Svr.DB4.validate P ⟨a, .create row.tries.toUInt32 oprf auth enc zero version⟩ = Svr.DB4.validate P ⟨a, .create 0 oprf auth enc zero version⟩ := by
    have h1 : ¬ (row.tries.toUInt32.toNat > 255) := by omega
    have h0 : ¬ ((0 : UInt32).toNat > 255) := by decide
    simp only [Svr.DB4.validate, Svr.DB4.MAX_ALLOWED_MAX_TRIES, h1, h0]
  have hb : row.tries.toUInt32.toUInt8 = row.tries := by
    apply UInt8.toNat_inj.mp
    simp
  simp only [Svr.DB4.run, hv, Svr.DB3.strToArr_self hid, Svr.DB4.create, hf, hne, hb, reduceCtorEq, false_and, if_false, Option.getD_some, ne_eq,
    not_true_eq_false, not_false_eq_true, if_true]

/-- **C88 (SVR4)**: after a Remove the account is absent. -/
theorem C88_svr4_removed {path : Bytes → Bool} {db db' : Svr.DB4.DB} {a : Bytes} {r : Svr.DB4.Effect} (h : Svr.DB4.run P path db ⟨a, .remove⟩ = .ok (db', r)) :
    db'.rows.find a = none := by
  simp only [Svr.DB4.run] at h
  obtain ⟨_, hc, h⟩ := Out.bind_eq_ok.mp h
  have hl : a.length = Svr.DB4.BACKUP_ID_SIZE := by
    by_contra hl
    simp [Svr.DB4.validate, hl, Out.check] at hc
  rw [Svr.DB3.strToArr_self hl] at h
  simp only [Svr.DB4.remove, Out.pure_eq, Out.ok.injEq] at h
  split at h <;> cases h
  · assumption
  · exact OMap.find_erase_self _ _

/-- **C88 (SVR4)**: after a Restore1 that leaves no tries, answered or not, the account is absent. -/
theorem C88_svr4_spent {path : Bytes → Bool} {db db' : Svr.DB4.DB} {a b : Bytes} {st : Svr.DB4.Status} {l : List (Bytes × UInt32)} {o : Option Svr.DB4.R2State}
    (hst : st = .ok ∨ st = .error) (h : Svr.DB4.run P path db ⟨a, .restore1 b⟩ = .ok (db', ⟨.restore1 st l 0, o⟩)) : db'.rows.find a = none := by
  simp only [Svr.DB4.run] at h
  obtain ⟨_, hc, h⟩ := Out.bind_eq_ok.mp h
  have hl : a.length = Svr.DB4.BACKUP_ID_SIZE := by
    by_contra hl
    simp [Svr.DB4.validate, hl, Out.check] at hc
  rw [Svr.DB3.strToArr_self hl] at h
  simp only [Svr.DB4.restore1, Out.pure_eq, Out.ok.injEq] at h
  split at h
  · cases h
    assumption
  · split at h
    · simp only [Prod.mk.injEq, Svr.DB4.Effect.mk.injEq, Svr.DB4.Resp.restore1.injEq] at h
      obtain ⟨_, ⟨hx, _⟩, _⟩ := h
      subst hx
      simp at hst
    · split at h
      · simp only [Prod.mk.injEq] at h
        rw [← h.1]; exact OMap.find_erase_self _ _
      · rename_i hn
        exfalso
        apply hn
        split at h <;> simp only [Prod.mk.injEq, Svr.DB4.Effect.mk.injEq, Svr.DB4.Resp.restore1.injEq] at h <;>
          exact UInt8.toNat_inj.mp h.2.1.2.2

/-- Hypotheses of the SVR4 theorems are met: an account with a pending rotation is made anew, and another one is removed. -/
example : ∃ (db1 db2 db3 : Svr.DB4.DB) (rs : List Svr.DB4.Effect) (r : Svr.DB4.Effect), Svr.DB4.Reach Props.DB4.P0 Svr.DB4.empty ∧
    runList (run4 Props.DB4.P0) Svr.DB4.empty [(fun _ => true, ⟨Props.DB4.ida, Props.DB4.mk 3⟩), (fun _ => true, ⟨Props.DB4.idb, Props.DB4.mk 3⟩),
      (fun _ => true, ⟨Props.DB4.ida, .rotateStart 8 Props.DB4.sc2 Props.DB4.sc1⟩)] = .ok (db1, rs) ∧ db1.rot.size = 1 ∧
    run4 Props.DB4.P0 db1 (fun _ => true, ⟨Props.DB4.ida, Props.DB4.mk 2⟩) = .ok (db2, r) ∧
    run4 Props.DB4.P0 db2 (fun _ => true, ⟨Props.DB4.idb, .remove⟩) = .ok (db3, ⟨.remove, none⟩) ∧ db3.rows.find Props.DB4.idb = none :=
  ⟨_, _, _, _, _, ⟨[], by simp, rfl⟩, rfl, by decide, rfl, rfl, by decide⟩

end

/-! ## SVR5 -/

section
variable {P : Svr.DB5.Prims5}

/-- Apply one entry. -/
def run5 (P : Svr.DB5.Prims5) (db : Svr.DB5.DB) (e : Step Svr.DB5.Log) : Out (Svr.DB5.DB × Svr.DB5.Resp) := Svr.DB5.run P e.1 db e.2

theorem local5 (P : Svr.DB5.Prims5) (e : Step Svr.DB5.Log) : ∃ f : Option Svr.DB5.Row → Out (Option Svr.DB5.Row × Svr.DB5.Resp), ∀ db : Svr.DB5.DB,
    run5 P db e = (do let (o, r) ← f (db.find e.2.id); pure (db.set e.2.id o, r)) := Svr.DB5.run_local P e.1 e.2

theorem valid5 {db db' : Svr.DB5.DB} {e : Step Svr.DB5.Log} {r : Svr.DB5.Resp} (h : run5 P db e = .ok (db', r)) : Svr.DB5.validate e.2 = none := by
  simp only [run5, Svr.DB5.run] at h
  obtain ⟨_, hc, _⟩ := Out.bind_eq_ok.mp h
  by_contra hl
  simp [hl, Out.check] at hc

theorem inv5 : ∀ {es : List (Step Svr.DB5.Log)} {db db' : Svr.DB5.DB} {rs : List Svr.DB5.Resp}, Svr.DB5.Inv P db →
    runList (run5 P) db es = .ok (db', rs) → Svr.DB5.Inv P db'
  | [], _, _, _, hi, h => by cases h; exact hi
  | e :: es, db, db', rs, hi, h => by
    obtain ⟨⟨d1, r⟩, h1, h⟩ := Out.bind_eq_ok.mp h
    obtain ⟨⟨d2, rs2⟩, h2, h⟩ := Out.bind_eq_ok.mp h
    cases h
    obtain ⟨d1', r', k1, k2⟩ := Svr.DB5.run_inv P e.1 e.2 hi (valid5 h1)
    rw [show Svr.DB5.run P e.1 db e.2 = run5 P db e from rfl, h1] at k1
    cases k1
    exact inv5 k2 h2

/-- **C88 (SVR5)**: an absent account leaves nothing behind. -/
theorem C88_svr5_gone {a : Bytes} {es : List (Step Svr.DB5.Log)} {db db' : Svr.DB5.DB} {rs : List Svr.DB5.Resp} (h0 : db.find a = none)
    (h : runList (run5 P) db es = .ok (db', rs)) (ha : db'.find a = none) :
    runList (run5 P) db (without (·.2.id) a es) = .ok (db', answersWithout (·.2.id) a es rs) :=
  run_without_same (get := fun s k => s.find k) (put := fun s k o => s.set k o) (fun _ _ _ => OMap.find_set_self _ _ _)
    (fun _ _ _ _ hk => OMap.find_set_ne _ _ hk) (local5 P) (fun _ _ => OMap.ext_find) a h (by rw [h0, ha])

/-- **C88 (SVR5)**: an Upload leaves nothing of what the account held before. -/
theorem C88_svr5_overwritten {e : Step Svr.DB5.Log} {d : Bytes} (he : e.2.req = .upload d) {es : List (Step Svr.DB5.Log)} {db db1 db2 : Svr.DB5.DB}
    {rs : List Svr.DB5.Resp} {r : Svr.DB5.Resp} (hr : Svr.DB5.Reach P db) (h1 : runList (run5 P) db es = .ok (db1, rs)) (h2 : run5 P db1 e = .ok (db2, r)) :
    runList (run5 P) db (without (·.2.id) e.2.id es ++ [e]) = .ok (db2, answersWithout (·.2.id) e.2.id es rs ++ [r]) := by
  refine run_without_before (get := fun s k => s.find k) (put := fun s k o => s.set k o) (fun _ _ _ => OMap.find_set_self _ _ _)
    (fun _ _ _ _ hk => OMap.find_set_ne _ _ hk) (local5 P) h1 h2 ?_
  have hv := valid5 h2
  have hi0 := Svr.DB5.reach_inv hr
  have hi1 := inv5 hi0 h1
  intro t ht hta
  obtain ⟨path, id, req⟩ := e
  simp only at he ht hv hta
  subst he
  have hid : id.length = 16 := by
    by_contra hl
    simp [Svr.DB5.validate, hl] at hv
  have hd : d.length = 32 := by
    by_contra hl
    simp [Svr.DB5.validate, hid, hl] at hv
  have hone : ∀ {x : Svr.DB5.DB}, (∀ row, x.find id = some row → row.data.length = 32) →
      Svr.DB5.upload P x id d = .ok (x.insert id (Svr.DB5.updateLeaf P id ⟨d, []⟩), .upload .ok) := by
    intro x hx
    have hl : ∀ row : Svr.DB5.Row, row.data.length = 32 → Svr.DB5.copyData row d = .ok { row with data := d } := by
      intro row h
      rw [Svr.DB5.copyData, if_neg (by omega), hd, List.drop_eq_nil_of_le (by omega), List.append_nil]
    cases hf : x.find id with
    | none => simp only [Svr.DB5.upload, hf, hl Svr.DB5.newRow rfl, Out.bind_ok, Out.pure_eq, Svr.DB5.updateLeaf, Svr.DB5.rowRaw]
    | some row => simp only [Svr.DB5.upload, hf, hl row (hx row hf), Out.bind_ok, Out.pure_eq, Svr.DB5.updateLeaf, Svr.DB5.rowRaw]
  have hins : ∀ row, t.insert id row = db1.insert id row := fun row => OMap.ext_find fun k => by
    rw [OMap.find_insert, OMap.find_insert]
    split
    · rfl
    · rename_i hk; exact ht k fun e => hk e.symm
  simp only [run5, Svr.DB5.run]
  rw [hone (fun row hf => (hi0 id row (by rw [← hf, hta])).data_len), hone (fun row hf => (hi1 id row hf).data_len), hins]

/-- **C88 (SVR5)**: after a Purge the account is absent. -/
theorem C88_svr5_purged {path : Bytes → Bool} {db db' : Svr.DB5.DB} {a : Bytes} {r : Svr.DB5.Resp} (h : Svr.DB5.run P path db ⟨a, .purge⟩ = .ok (db', r)) :
    db'.find a = none := by
  simp only [Svr.DB5.run] at h
  obtain ⟨_, _, h⟩ := Out.bind_eq_ok.mp h
  obtain ⟨_, _, h⟩ := Out.bind_eq_ok.mp h
  simp only [Svr.DB5.purge, Out.pure_eq, Out.ok.injEq] at h
  split at h <;> cases h
  · assumption
  · exact OMap.find_erase_self _ _

/-- Hypotheses of the SVR5 theorems are met. -/
example : ∃ (db1 db2 : Svr.DB5.DB) (rs : List Svr.DB5.Resp) (r : Svr.DB5.Resp), Svr.DB5.Reach Props.DB5.P0 Svr.DB5.empty ∧
    runList (run5 Props.DB5.P0) Svr.DB5.empty [(fun _ => true, ⟨Props.DB5.ida, .upload Props.DB5.d1⟩), (fun _ => true, ⟨Props.DB5.idb, .upload Props.DB5.d1⟩),
      (fun _ => true, ⟨Props.DB5.idb, .purge⟩)] = .ok (db1, rs) ∧ db1.find Props.DB5.idb = none ∧
    run5 Props.DB5.P0 db1 (fun _ => true, ⟨Props.DB5.ida, .upload Props.DB5.d2⟩) = .ok (db2, r) :=
  ⟨_, _, _, _, ⟨[], by simp, rfl⟩, rfl, by decide, rfl⟩

end

end Svr.Props.Forget
