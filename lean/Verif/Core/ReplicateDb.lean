import Verif.Core.ReplicateRun
import Verif.DB2Rows
import Verif.DB3Rows
import Verif.DB4Load
import Verif.DB5Rows
import Verif.RowSize

/-!
# The four databases as replication sees them

`path` says for which accounts the path in the Merkle tree is intact; `parse` is `LogPB` with `ParseFromString`. Nothing is assumed
of it but that the empty string is a message without an id, as in any protobuf.
-/

namespace Svr.Core

/-- `LoadRowsFromProtos` returns the error in a pair with the empty string (enclave/db/db2.cc:314-369 and alike). -/
def loaded {D Er : Type} (x : Out (D × Except Er Bytes)) : Out (D × Option Bytes) := do
  let (d, r) ← x
  match r with
  | .ok k => .ok (d, some k)
  | .error _ => .ok (d, none)

/-- `RowsAsProtos`. -/
def emitted {Er PB : Type} (x : Except Er (Bytes × List PB)) : Option (Bytes × List PB) :=
  match x with
  | .ok r => some r
  | .error _ => none

/-- SVR2's database behind the interface of `core.cc` (enclave/db/db2.h:41-62). -/
def store2 (P : Prims) (path : Bytes → Bool) (parse : Bytes → Option DB2.Log) : Store DB2.DB DB2.Log DB2.Resp DB2.RowPB :=
  { fresh := DB2.empty
    parse := parse
    valid := fun l => DB2.validate l == none
    run := DB2.run P path
    key := DB2.Log.id
    rows := fun d k n => .ok (emitted (DB2.rowsAsProtos d k n))
    load := fun d rs => loaded (DB2.loadRows P d (rs.map some))
    maxRow := RowSize.max2 }

/-- SVR3's database behind the interface of `core.cc` (enclave/db/db3.h:20-60). -/
def store3 (P : DB3.Prims3) (path : Bytes → Bool) (parse : Bytes → Option DB3.Log) : Store DB3.DB DB3.Log DB3.Resp DB3.RowPB :=
  { fresh := DB3.empty
    parse := parse
    valid := fun l => DB3.validate l == none
    run := DB3.run P path
    key := DB3.Log.id
    rows := fun d k n => .ok (emitted (DB3.rowsAsProtos d k n))
    load := fun d rs => loaded (DB3.loadRows P d (rs.map some))
    maxRow := RowSize.max3 }

/-- SVR4's database behind the interface of `core.cc` (enclave/db/db4.h:20-70). -/
def store4 (P : DB4.Prims4) (path : Bytes → Bool) (parse : Bytes → Option DB4.Log) : Store DB4.DB DB4.Log DB4.Effect DB4.RowPB :=
  { fresh := DB4.empty
    parse := parse
    valid := fun l => DB4.validate P l == none
    run := DB4.run P path
    key := DB4.Log.id
    rows := fun d k n => do .ok (emitted (← DB4.rowsAsProtos d k n))
    load := fun d rs => loaded (DB4.loadRows P d (rs.map some))
    maxRow := RowSize.max4 }

/-- SVR5's database behind the interface of `core.cc` (enclave/db/db5.h:20-60). -/
def store5 (P : DB5.Prims5) (path : Bytes → Bool) (parse : Bytes → Option DB5.Log) : Store DB5.DB DB5.Log DB5.Resp DB5.RowPB :=
  { fresh := DB5.empty
    parse := parse
    valid := fun l => DB5.validate l == none
    run := DB5.run P path
    key := DB5.Log.id
    rows := fun d k n => .ok (emitted (DB5.rowsAsProtos d k n))
    load := fun d rs => loaded (DB5.loadRows P d (rs.map some))
    maxRow := RowSize.max5 }

/-- Two sorted lists, the first below the second. -/
theorem append_sorted {V : Type} {a b : List (Bytes × V)} (ha : a.Pairwise (fun x y => x.1 < y.1)) (hb : b.Pairwise (fun x y => x.1 < y.1))
    (h : ∀ p ∈ a, ∀ q ∈ b, p.1 < q.1) : (a ++ b).Pairwise (fun x y => x.1 < y.1) :=
  List.pairwise_append.mpr ⟨ha, hb, h⟩

theorem id_ne {k : Bytes} (h : k.length = 16) : k ≠ [] := by rintro rfl; cases h

/-- What `run_local` gives. -/
theorem local_else {R E : Type} {run : OMap Bytes R → Out (OMap Bytes R × E)} {k : Bytes}
    (h : ∃ f : Option R → Out (Option R × E), ∀ db, run db = (do let (o, r) ← f (db.find k); pure (db.set k o, r)))
    {d d' : OMap Bytes R} {r : E} (hr : run d = .ok (d', r)) (x : Bytes) (hx : x ≠ k) : d'.find x = d.find x := by
  obtain ⟨f, hf⟩ := h
  rw [hf] at hr
  obtain ⟨⟨o, r1⟩, _, h2⟩ := Out.bind_eq_ok.mp hr
  cases h2
  rw [OMap.find_set, if_neg (Ne.symm hx)]

theorem local_same {R E : Type} {run : OMap Bytes R → Out (OMap Bytes R × E)} {k : Bytes}
    (h : ∃ f : Option R → Out (Option R × E), ∀ db, run db = (do let (o, r) ← f (db.find k); pure (db.set k o, r)))
    {d1 d2 d1' : OMap Bytes R} {r : E} (he : d2.find k = d1.find k) (hr : run d1 = .ok (d1', r)) :
    ∃ d2', run d2 = .ok (d2', r) ∧ d2'.find k = d1'.find k := by
  obtain ⟨f, hf⟩ := h
  rw [hf] at hr
  obtain ⟨⟨o, r1⟩, h1, h2⟩ := Out.bind_eq_ok.mp hr
  cases h2
  refine ⟨d2.set k o, ?_, by simp⟩
  rw [hf, he, h1]
  rfl

theorem lawful2 (P : Prims) (path : Bytes → Bool) (parse : Bytes → Option DB2.Log) (hp : ∀ l, parse [] = some l → l.id = []) :
    Lawful (store2 P path parse) id DB2.rowToPB (DB2.Inv P) (fun k => k.length = 16) := by
  have hv : ∀ l, (store2 P path parse).valid l = true → DB2.validate l = none := fun l h => by simpa [store2] using h
  refine ⟨DB2.inv_empty P, rfl, fun d d' _ _ h => h, fun k => id_ne, fun d k v h hf => (h k v hf).id_len, ?_, ?_, ?_, ?_, ?_, ?_, ?_⟩
  · intro l h; exact ((DB2.validate_iff l).mp (hv l h)).1
  · intro l h
    by_contra hc
    have := ((DB2.validate_iff l).mp (hv l (by simpa using hc))).1
    rw [hp l h] at this; cases this
  · intro d l d' r hi h hr
    obtain ⟨d2, r2, h1, h2⟩ := DB2.run_inv path l hi (hv l h)
    have : DB2.run P path d l = .ok (d', r) := hr
    rw [h1] at this; cases this; exact h2
  · intro d l d' r _ _ hr k hk
    exact local_else (DB2.run_local P path l) hr k hk
  · intro d1 d2 l d1' r _ _ _ he hr
    exact local_same (DB2.run_local P path l) he hr
  · intro d k n _ hk
    show Out.ok (emitted (DB2.rowsAsProtos d k n)) = _
    unfold DB2.rowsAsProtos rowsAfter
    rcases hk with rfl | hk
    · rfl
    · have h0 : k.isEmpty = false := by cases k; cases hk; rfl
      have : DB2.backupIDFromString k = some k := by simp [DB2.backupIDFromString, hk]
      simp only [h0, Bool.false_eq_true, if_false, this]
      rfl
  · intro d1 d c h1 h2 hc hm hs hlt
    refine ⟨⟨d1.list ++ c, append_sorted d1.sorted hs hlt⟩, ?_, rfl, ?_⟩
    · intro k v hf
      rcases List.mem_append.mp (OMap.mem_list.mpr hf) with h | h
      · exact h1 k v (OMap.mem_list.mp h)
      · exact h2 k v (OMap.mem_list.mp (hm _ h))
    · show loaded _ = _
      rw [DB2.loadRows_emitted (m2 := ⟨d1.list ++ c, append_sorted d1.sorted hs hlt⟩) rfl hc
        (fun p hpc => h2 p.1 p.2 (OMap.mem_list.mp (hm p hpc)))]
      rfl

theorem lawful3 (P : DB3.Prims3) (path : Bytes → Bool) (parse : Bytes → Option DB3.Log) (hp : ∀ l, parse [] = some l → l.id = []) :
    Lawful (store3 P path parse) id DB3.rowToPB (DB3.Inv P) (fun k => k.length = 16) := by
  have hv : ∀ l, (store3 P path parse).valid l = true → DB3.validate l = none := fun l h => by simpa [store3] using h
  refine ⟨DB3.inv_empty P, rfl, fun d d' _ _ h => h, fun k => id_ne, fun d k v h hf => (h k v hf).id_len, ?_, ?_, ?_, ?_, ?_, ?_, ?_⟩
  · intro l h; exact ((DB3.validate_iff l).mp (hv l h)).1
  · intro l h
    by_contra hc
    have := ((DB3.validate_iff l).mp (hv l (by simpa using hc))).1
    rw [hp l h] at this; cases this
  · intro d l d' r hi h hr
    obtain ⟨d2, r2, h1, h2⟩ := DB3.run_inv P path l hi (hv l h)
    have : DB3.run P path d l = .ok (d', r) := hr
    rw [h1] at this; cases this; exact h2
  · intro d l d' r _ _ hr k hk
    exact local_else (DB3.run_local P path l) hr k hk
  · intro d1 d2 l d1' r _ _ _ he hr
    exact local_same (DB3.run_local P path l) he hr
  · intro d k n _ hk
    show Out.ok (emitted (DB3.rowsAsProtos d k n)) = _
    unfold DB3.rowsAsProtos rowsAfter
    rcases hk with rfl | hk
    · rfl
    · have h0 : k.isEmpty = false := by cases k; cases hk; rfl
      simp only [h0, Bool.false_eq_true, if_false, DB3.strToArr_self hk]
      rfl
  · intro d1 d c h1 h2 hc hm hs hlt
    refine ⟨⟨d1.list ++ c, append_sorted d1.sorted hs hlt⟩, ?_, rfl, ?_⟩
    · intro k v hf
      rcases List.mem_append.mp (OMap.mem_list.mpr hf) with h | h
      · exact h1 k v (OMap.mem_list.mp h)
      · exact h2 k v (OMap.mem_list.mp (hm _ h))
    · show loaded _ = _
      rw [DB3.loadRows_emitted (m2 := ⟨d1.list ++ c, append_sorted d1.sorted hs hlt⟩) rfl
        (fun p hpc => h2 p.1 p.2 (OMap.mem_list.mp (hm p hpc)))]
      rfl

theorem lawful5 (P : DB5.Prims5) (path : Bytes → Bool) (parse : Bytes → Option DB5.Log) (hp : ∀ l, parse [] = some l → l.id = []) :
    Lawful (store5 P path parse) id DB5.rowToPB (DB5.Inv P) (fun k => k.length = 16) := by
  have hv : ∀ l, (store5 P path parse).valid l = true → DB5.validate l = none := fun l h => by simpa [store5] using h
  refine ⟨DB5.inv_empty P, rfl, fun d d' _ _ h => h, fun k => id_ne, fun d k v h hf => (h k v hf).id_len, ?_, ?_, ?_, ?_, ?_, ?_, ?_⟩
  · intro l h; exact ((DB5.validate_iff l).mp (hv l h)).1
  · intro l h
    by_contra hc
    have := ((DB5.validate_iff l).mp (hv l (by simpa using hc))).1
    rw [hp l h] at this; cases this
  · intro d l d' r hi h hr
    obtain ⟨d2, r2, h1, h2⟩ := DB5.run_inv P path l hi (hv l h)
    have : DB5.run P path d l = .ok (d', r) := hr
    rw [h1] at this; cases this; exact h2
  · intro d l d' r _ _ hr k hk
    exact local_else (DB5.run_local P path l) hr k hk
  · intro d1 d2 l d1' r _ _ _ he hr
    exact local_same (DB5.run_local P path l) he hr
  · intro d k n _ hk
    show Out.ok (emitted (DB5.rowsAsProtos d k n)) = _
    unfold DB5.rowsAsProtos rowsAfter
    rcases hk with rfl | hk
    · rfl
    · have h0 : k.isEmpty = false := by cases k; cases hk; rfl
      simp only [h0, Bool.false_eq_true, if_false]
      rw [if_neg (fun x => x hk)]
      rfl
  · intro d1 d c h1 h2 hc hm hs hlt
    refine ⟨⟨d1.list ++ c, append_sorted d1.sorted hs hlt⟩, ?_, rfl, ?_⟩
    · intro k v hf
      rcases List.mem_append.mp (OMap.mem_list.mpr hf) with h | h
      · exact h1 k v (OMap.mem_list.mp h)
      · exact h2 k v (OMap.mem_list.mp (hm _ h))
    · show loaded _ = _
      rw [DB5.loadRows_emitted (m2 := ⟨d1.list ++ c, append_sorted d1.sorted hs hlt⟩) rfl hc
        (fun p hpc => h2 p.1 p.2 (OMap.mem_list.mp (hm p hpc)))]
      rfl

theorem joint_find (db : DB4.DB) (k : Bytes) : (DB4.joint db).find k = (db.rows.find k).map fun r => (r, db.rot.find k) := by
  unfold DB4.joint; rw [OMap.find_mapV]

theorem joint_split (m : OMap Bytes (DB4.Row × Option DB4.Rot)) : DB4.joint (DB4.split m) = m := by
  apply OMap.ext_find
  intro k
  rw [joint_find]
  unfold DB4.split
  simp only [OMap.find_mapV, OMap.find_filterMapV]
  cases m.find k <;> rfl

/-- On a well-formed database the joint entry decides both. -/
theorem get_of_joint {P : DB4.Prims4} {d d' : DB4.DB} (h : DB4.Inv P d) (h' : DB4.Inv P d') {k : Bytes}
    (he : (DB4.joint d').find k = (DB4.joint d).find k) : DB4.get d' k = DB4.get d k := by
  rw [joint_find, joint_find] at he
  have h1 := h k
  have h2 := h' k
  unfold DB4.get
  cases ha : d.rows.find k with
  | none =>
    cases hb : d'.rows.find k with
    | none =>
      rw [ha] at h1; rw [hb] at h2
      rw [show d.rot.find k = none from h1, show d'.rot.find k = none from h2]
    | some r => rw [ha, hb] at he; cases he
  | some r =>
    cases hb : d'.rows.find k with
    | none => rw [ha, hb] at he; cases he
    | some r' =>
      rw [ha, hb] at he
      simp only [Option.map_some, Option.some.injEq, Prod.mk.injEq] at he
      rw [he.1, he.2]

theorem lawful4 (P : DB4.Prims4) (hadd : DB4.SaddOK P) (path : Bytes → Bool) (parse : Bytes → Option DB4.Log)
    (hp : ∀ l, parse [] = some l → l.id = []) :
    Lawful (store4 P path parse) DB4.joint DB4.rowToPB (DB4.Inv P) (fun k => k.length = 16) := by
  have hv : ∀ l, (store4 P path parse).valid l = true → DB4.validate P l = none := fun l h => by simpa [store4] using h
  refine ⟨DB4.inv_empty P, ?_, ?_, fun k => id_ne, ?_, ?_, ?_, ?_, ?_, ?_, ?_, ?_⟩
  · apply OMap.ext_find; intro k; rw [joint_find]; rfl
  · intro d d' h h' he
    rw [← DB4.split_joint h, ← DB4.split_joint h', he]
  · intro d k v h hf
    exact (DB4.joint_good h (k, v) (OMap.mem_list.mpr hf)).1.id_len
  · intro l h; exact ((DB4.validate_iff P l).mp (hv l h)).1
  · intro l h
    by_contra hc
    have := ((DB4.validate_iff P l).mp (hv l (by simpa using hc))).1
    rw [hp l h] at this; cases this
  · intro d l d' r hi h hr
    obtain ⟨d2, r2, h1, h2, _⟩ := DB4.run_cases P hadd path d l hi (hv l h)
    have : DB4.run P path d l = .ok (d', r) := hr
    rw [h1] at this; cases this; exact h2
  · intro d l d' r hi h hr k hk
    obtain ⟨d2, r2, h1, _, h3, _⟩ := DB4.run_cases P hadd path d l hi (hv l h)
    have : DB4.run P path d l = .ok (d', r) := hr
    rw [h1] at this; cases this
    rw [joint_find, joint_find, (h3 k hk).1, (h3 k hk).2]
  · intro d1 d2 l d1' r hi1 hi2 h he hr
    obtain ⟨f, hf⟩ := DB4.run_local P path l
    have hg := get_of_joint hi1 hi2 (k := l.id) he
    have hr' : DB4.run P path d1 l = .ok (d1', r) := hr
    rw [hf] at hr'
    obtain ⟨⟨o, r1⟩, h1, h2⟩ := Out.bind_eq_ok.mp hr'
    cases h2
    refine ⟨DB4.put d2 l.id o, ?_, ?_⟩
    · show DB4.run P path d2 l = _
      rw [hf, hg, h1]; rfl
    · show (DB4.joint (DB4.put d2 l.id o)).find l.id = (DB4.joint (DB4.put d1 l.id o)).find l.id
      rw [joint_find, joint_find]
      simp [DB4.put]
  · intro d k n hi hk
    show (do Out.ok (emitted (← DB4.rowsAsProtos d k n))) = _
    rw [DB4.rowsAsProtos_at hi k n hk]
    rfl
  · intro d1 d c h1 h2 hc hm hs hlt
    have hgood : ∀ p ∈ c, DB4.GoodEnt P p.1 p.2 := fun p hpc => DB4.joint_good h2 p (hm p hpc)
    refine ⟨DB4.split ⟨(DB4.joint d1).list ++ c, append_sorted (DB4.joint d1).sorted hs hlt⟩, ?_, ?_, ?_⟩
    · intro k
      have hj := joint_find (DB4.split ⟨(DB4.joint d1).list ++ c, append_sorted (DB4.joint d1).sorted hs hlt⟩) k
      rw [joint_split] at hj
      unfold DB4.split at hj ⊢
      simp only [OMap.find_mapV, OMap.find_filterMapV] at hj ⊢
      cases hf : (⟨(DB4.joint d1).list ++ c, append_sorted (DB4.joint d1).sorted hs hlt⟩ :
          OMap Bytes (DB4.Row × Option DB4.Rot)).find k with
      | none => rfl
      | some v =>
        have hmem := OMap.mem_list.mpr hf
        show DB4.EntOK P k (some v.1) v.2
        rcases List.mem_append.mp hmem with h | h
        · exact DB4.joint_good h1 (k, v) h
        · exact hgood (k, v) h
    · rw [joint_split]
    · show loaded _ = _
      have := DB4.loadRows_emitted (P := P) (m1 := DB4.joint d1)
        (m2 := ⟨(DB4.joint d1).list ++ c, append_sorted (DB4.joint d1).sorted hs hlt⟩) rfl hgood
      rw [DB4.split_joint h1] at this
      rw [this]
      rfl

end Svr.Core
