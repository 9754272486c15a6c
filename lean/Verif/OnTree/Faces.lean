import Verif.OnTree.Refine
import Verif.DB2
import Verif.DB3
import Verif.DB4
import Verif.DB5

/-!
# The four databases, as seen by the tree
-/

namespace Svr.OnTree

/-- What a call of a database answers. -/
inductive Res (A E : Type) where
  | run (a : A)
  | load (r : Except E Bytes)
  | renew

/-- `DB2` with its calls of Verif/DB2.lean. -/
def db2 (P : Prims) : Face DB2.DB DB2.Log (Option DB2.RowPB) (Res DB2.Resp DB2.Err) where
  call path d c := match c with
    | .run l => do let (d', a) ← DB2.run P path d l; .ok (d', .run a)
    | .load rows => do let (d', a) ← DB2.loadRows P d rows; .ok (d', .load a)
    | .renew => .ok (DB2.empty, .renew)
  leaves d := d.mapV fun _ r => r.leaf
  see d f := d.mapV fun id r => { r with leaf := f id }

/-- `DB3` with its calls of Verif/DB3.lean. -/
def db3 (P : DB3.Prims3) : Face DB3.DB DB3.Log (Option DB3.RowPB) (Res DB3.Resp DB3.Err) where
  call path d c := match c with
    | .run l => do let (d', a) ← DB3.run P path d l; .ok (d', .run a)
    | .load rows => do let (d', a) ← DB3.loadRows P d rows; .ok (d', .load a)
    | .renew => .ok (DB3.empty, .renew)
  leaves d := d.mapV fun _ r => r.leaf
  see d f := d.mapV fun id r => { r with leaf := f id }

/-- `DB4` with its calls of Verif/DB4.lean. The entries of `rotate_rows_` have no leaf: they are hashed with their row. -/
def db4 (P : DB4.Prims4) : Face DB4.DB DB4.Log (Option DB4.RowPB) (Res DB4.Effect DB4.Err) where
  call path d c := match c with
    | .run l => do let (d', a) ← DB4.run P path d l; .ok (d', .run a)
    | .load rows => do let (d', a) ← DB4.loadRows P d rows; .ok (d', .load a)
    | .renew => .ok (DB4.empty, .renew)
  leaves d := d.rows.mapV fun _ r => r.leaf
  see d f := ⟨d.rows.mapV fun id r => { r with leaf := f id }, d.rot⟩

/-- `DB5` with its calls of Verif/DB5.lean. -/
def db5 (P : DB5.Prims5) : Face DB5.DB DB5.Log (Option DB5.RowPB) (Res DB5.Resp DB5.Err) where
  call path d c := match c with
    | .run l => do let (d', a) ← DB5.run P path d l; .ok (d', .run a)
    | .load rows => do let (d', a) ← DB5.loadRows P d rows; .ok (d', .load a)
    | .renew => .ok (DB5.empty, .renew)
  leaves d := d.mapV fun _ r => r.leaf
  see d f := d.mapV fun id r => { r with leaf := f id }

theorem db2_run (P : Prims) (path : Bytes → Bool) (d : DB2.DB) (l : DB2.Log) :
    (db2 P).call path d (.run l) = (do let (d', a) ← DB2.run P path d l; .ok (d', .run a)) := rfl

theorem db3_run (P : DB3.Prims3) (path : Bytes → Bool) (d : DB3.DB) (l : DB3.Log) :
    (db3 P).call path d (.run l) = (do let (d', a) ← DB3.run P path d l; .ok (d', .run a)) := rfl

theorem db4_run (P : DB4.Prims4) (path : Bytes → Bool) (d : DB4.DB) (l : DB4.Log) :
    (db4 P).call path d (.run l) = (do let (d', a) ← DB4.run P path d l; .ok (d', .run a)) := rfl

theorem db5_run (P : DB5.Prims5) (path : Bytes → Bool) (d : DB5.DB) (l : DB5.Log) :
    (db5 P).call path d (.run l) = (do let (d', a) ← DB5.run P path d l; .ok (d', .run a)) := rfl

/-- Rows with a leaf field. -/
theorem see_same {V : Type} {leaf : V → Bytes} {put : Bytes → V → V} (hput : ∀ v, put (leaf v) v = v) (m : OMap Bytes V) (f : Bytes → Bytes)
    (h : ∀ id x, (m.mapV fun _ r => leaf r).find id = some x → f id = x) : m.mapV (fun id r => put (f id) r) = m := by
  refine OMap.ext_find fun id => ?_
  rw [OMap.find_mapV]
  cases hm : m.find id with
  | none => rfl
  | some v =>
    have := h id (leaf v) (by rw [OMap.find_mapV, hm]; rfl)
    simp only [Option.map_some, this, hput]

theorem leaves_see {V : Type} {leaf : V → Bytes} {put : Bytes → V → V} (hput : ∀ b v, leaf (put b v) = b) (m : OMap Bytes V) (f : Bytes → Bytes)
    (id : Bytes) : ((m.mapV (fun id r => put (f id) r)).mapV fun _ r => leaf r).find id = ((m.mapV fun _ r => leaf r).find id).map fun _ => f id := by
  simp only [OMap.find_mapV]
  cases m.find id with
  | none => rfl
  | some v => simp [hput]

theorem leaf_ne {V : Type} {leaf : V → Bytes} {m : OMap Bytes V} {id : Bytes} {v : V} (h : m.find id = some v) :
    (m.mapV fun _ r => leaf r).find id ≠ none := by
  rw [OMap.find_mapV, h]; simp

theorem db2_lawful (P : Prims) : Lawful (db2 P) where
  same d f h := see_same (leaf := DB2.Row.leaf) (put := fun b r => { r with leaf := b }) (fun _ => rfl) d f h
  seen d f id := leaves_see (leaf := DB2.Row.leaf) (put := fun b r => { r with leaf := b }) (fun _ _ => rfl) d f id
  asks path d c h := by
    cases c with
    | load rows => rfl
    | renew => rfl
    | run l =>
      have : DB2.run P path d l = DB2.run P (fun _ => true) d l := by
        obtain ⟨id, req⟩ := l
        have hv : ∀ r, d.find id = some r → DB2.verify P path id r = DB2.verify P (fun _ => true) id r := by
          intro r hr
          unfold DB2.verify
          rw [h id (leaf_ne hr)]
        unfold DB2.run
        cases req with
        | restore g =>
          unfold DB2.restore
          cases hr : d.find id with
          | none => rfl
          | some r => simp only [hv r hr]
        | expose x =>
          unfold DB2.expose
          cases hr : d.find id with
          | none => rfl
          | some r => simp only [hv r hr]
        | _ => rfl
      show (do let (d', a) ← DB2.run P path d l; _) = _
      rw [this]
      rfl

theorem db3_lawful (P : DB3.Prims3) : Lawful (db3 P) where
  same d f h := see_same (leaf := DB3.Row.leaf) (put := fun b r => { r with leaf := b }) (fun _ => rfl) d f h
  seen d f id := leaves_see (leaf := DB3.Row.leaf) (put := fun b r => { r with leaf := b }) (fun _ _ => rfl) d f id
  asks path d c h := by
    cases c with
    | load rows => rfl
    | renew => rfl
    | run l =>
      have hv : ∀ id r, d.find id = some r → DB3.verify P path id r = DB3.verify P (fun _ => true) id r := by
        intro id r hr
        unfold DB3.verify
        rw [h id (leaf_ne hr)]
      have he : ∀ id b, DB3.evaluate P path d id b = DB3.evaluate P (fun _ => true) d id b := by
        intro id b
        unfold DB3.evaluate
        cases hr : d.find id with
        | none => rfl
        | some r => simp only [hv id r hr]
      have : DB3.run P path d l = DB3.run P (fun _ => true) d l := by
        unfold DB3.run
        simp only [he]
      show (do let (d', a) ← DB3.run P path d l; _) = _
      rw [this]
      rfl

theorem db4_lawful (P : DB4.Prims4) : Lawful (db4 P) where
  same d f h := by
    have := see_same (leaf := DB4.Row.leaf) (put := fun b r => { r with leaf := b }) (fun _ => rfl) d.rows f h
    show (⟨_, d.rot⟩ : DB4.DB) = d
    rw [this]
  seen d f id := leaves_see (leaf := DB4.Row.leaf) (put := fun b r => { r with leaf := b }) (fun _ _ => rfl) d.rows f id
  asks path d c h := by
    cases c with
    | load rows => rfl
    | renew => rfl
    | run l =>
      have hv : ∀ id r rr, d.rows.find id = some r → DB4.verify P path id r rr = DB4.verify P (fun _ => true) id r rr := by
        intro id r rr hr
        unfold DB4.verify
        rw [h id (leaf_ne hr)]
      have h1 : ∀ id b, DB4.restore1 P path d id b = DB4.restore1 P (fun _ => true) d id b := by
        intro id b
        unfold DB4.restore1
        cases hr : d.rows.find id with
        | none => rfl
        | some r => simp only [hv id r _ hr]
      have h2 : ∀ id v od ed, DB4.rotateStart P path d id v od ed = DB4.rotateStart P (fun _ => true) d id v od ed := by
        intro id v od ed
        unfold DB4.rotateStart
        cases hr : d.rows.find id with
        | none => rfl
        | some r => simp only [hv id r _ hr]
      have h3 : ∀ id v, DB4.rotateCommit P path d id v = DB4.rotateCommit P (fun _ => true) d id v := by
        intro id v
        unfold DB4.rotateCommit
        cases hr : d.rows.find id with
        | none => rfl
        | some r => simp only [hv id r _ hr]
      have h4 : ∀ id v, DB4.rotateRollback P path d id v = DB4.rotateRollback P (fun _ => true) d id v := by
        intro id v
        unfold DB4.rotateRollback
        cases hr : d.rows.find id with
        | none => rfl
        | some r => simp only [hv id r _ hr]
      have : DB4.run P path d l = DB4.run P (fun _ => true) d l := by
        unfold DB4.run
        simp only [h1, h2, h3, h4]
      show (do let (d', a) ← DB4.run P path d l; _) = _
      rw [this]
      rfl

theorem db5_lawful (P : DB5.Prims5) : Lawful (db5 P) where
  same d f h := see_same (leaf := DB5.Row.leaf) (put := fun b r => { r with leaf := b }) (fun _ => rfl) d f h
  seen d f id := leaves_see (leaf := DB5.Row.leaf) (put := fun b r => { r with leaf := b }) (fun _ _ => rfl) d f id
  asks path d c h := by
    cases c with
    | load rows => rfl
    | renew => rfl
    | run l =>
      have hv : ∀ id r, d.find id = some r → DB5.verify P path id r = DB5.verify P (fun _ => true) id r := by
        intro id r hr
        unfold DB5.verify
        rw [h id (leaf_ne hr)]
      have he : ∀ id b, DB5.download P path d id b = DB5.download P (fun _ => true) d id b := by
        intro id b
        unfold DB5.download
        cases hr : d.find id with
        | none => rfl
        | some r => simp only [hv id r hr]
      have : DB5.run P path d l = DB5.run P (fun _ => true) d l := by
        unfold DB5.run
        simp only [he]
      show (do let (d', a) ← DB5.run P path d l; _) = _
      rw [this]
      rfl

end Svr.OnTree
