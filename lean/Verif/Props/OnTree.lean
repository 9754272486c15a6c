import Verif.OnTree.Faces
import Verif.Props.DB2Rows
import Verif.Props.DB3
import Verif.Props.DB4
import Verif.Props.DB5

/-!
# Databases on the Merkle tree (C63, C64)

The databases with their leaves in the tree of Verif/Merkle.lean, which other users of the tree share. `H` is the hash of a node's child
hashes, `zero` the hash of an empty slot; both are arbitrary. `Want.Steps` (Verif/Spec/OnTree.lean) says what is expected of a
sequence of events, without a tree.
-/

namespace Svr.Props.OnTree
open Svr.OnTree Svr.Merkle
variable {D L R A : Type}

/-- A new tree and an empty database, then a history. -/
def play (F : Face D L R A) (H : List Bytes → Bytes) (zero : Bytes) (d : D) (es : List (Ev L R)) : Out (St D × List (Ans A)) := do
  steps F H zero (← start H zero d) es

theorem play_rel {F : Face D L R A} (hF : Lawful F) (H : List Bytes → Bytes) (zero : Bytes) {d : D} (hd : F.leaves d = OMap.empty) {es : List (Ev L R)}
    {w : Want D} {as : List (Ans A)} (h : Want.Steps F (Want.start d) es w as) :
    ∃ s T, play F H zero d es = .ok (s, as) ∧ Rel F H zero w s T := by
  obtain ⟨s0, T0, h0, r0⟩ := Rel.start (F := F) (H := H) (zero := zero) hd
  obtain ⟨s, T, h1, r⟩ := Rel.steps hF h r0
  exact ⟨s, T, by unfold play; rw [h0, Out.bind_ok]; exact h1, r⟩

/-- What C63 says of one database. -/
def AsWithout (F : Face D L R A) (d : D) : Prop :=
  ∀ (H : List Bytes → Bytes) (zero : Bytes) (es : List (Ev L R)) (w : Want D) (as : List (Ans A)), Want.Steps F (Want.start d) es w as →
    ∃ s, play F H zero d es = .ok (s, as) ∧ s.db = w.db ∧
      (w.others.settled →
        (∀ id x, (F.leaves w.db).find id = some x → ∀ h, verify H s.tree (s.loc id) h = .ok (decide (h = x))) ∧
        ∀ c fresh temp, (F.call (fun _ => true) w.db c = .abort → call F H zero s c fresh temp = .abort) ∧
          (F.call (fun _ => true) w.db c = .ub → call F H zero s c fresh temp = .ub))

theorem asWithout {F : Face D L R A} (hF : Lawful F) {d : D} (hd : F.leaves d = OMap.empty) : AsWithout F d := by
  intro H zero es w as h
  obtain ⟨s, T, h1, r⟩ := play_rel hF H zero hd h
  refine ⟨s, h1, r.db, fun hset => ⟨?_, ?_⟩⟩
  · intro id x hx h
    rw [r.loc]
    exact verify_table r.inv (r.joint.settled hset) (r.joint.row id x hx) h
  · intro c fresh temp
    rw [r.call_eq hF hset]
    exact ⟨fun h => by rw [h]; rfl, fun h => by rw [h]; rfl⟩

/-- **C63 (SVR2)**. Whatever log entries are applied, rows loaded, databases replaced, and leaves made, changed, moved, destroyed and
verified by other users of the tree: the database on the tree answers as one whose integrity checks always succeed, no tree
operation fails, every other leaf verifies with exactly its last hash, and so does every row. -/
theorem C63_db2 (P : Prims) : AsWithout (db2 P) DB2.empty := asWithout (db2_lawful P) rfl

/-- **C63 (SVR3)**. -/
theorem C63_db3 (P : DB3.Prims3) : AsWithout (db3 P) DB3.empty := asWithout (db3_lawful P) rfl

/-- **C63 (SVR4)**. -/
theorem C63_db4 (P : DB4.Prims4) : AsWithout (db4 P) DB4.empty := asWithout (db4_lawful P) rfl

/-- **C63 (SVR5)**. -/
theorem C63_db5 (P : DB5.Prims5) : AsWithout (db5 P) DB5.empty := asWithout (db5_lawful P) rfl

/-! ## C64: memory written over -/

/-- The answer alone. -/
def answer {X Y : Type} : Out (X × Y) → Out Y
  | .ok p => .ok p.2
  | .abort => .abort
  | .ub => .ub

/-- The condition under which C64 speaks: after a history on a new tree, someone writes over rows and hashes at will, but not over
`roothash_`, pointers or the keys of the map, and without finding a collision of node hashes on the path of `id`. -/
structure Written (F : Face D L R A) (H : List Bytes → Bytes) (w : Want D) (s : St D) (d : D) (mem : HPtr → Bytes) (id : Bytes) : Prop where
  settled : w.others.settled
  keys : ∀ k, (F.leaves w.db).find k = none → (F.leaves d).find k = none
  root : mem .root = s.tree.mem .root
  apart : Apart H s.tree (s.loc id) mem

theorem db2_inv {P : Prims} {es : List (Ev DB2.Log (Option DB2.RowPB))} {w : Want DB2.DB} {as : List (Ans (Res DB2.Resp DB2.Err))}
    (h : Want.Steps (db2 P) (Want.start DB2.empty) es w as) : DB2.Inv P w.db := by
  refine Want.Steps.keep (I := DB2.Inv P) (ok := fun _ => True) ?_ h (fun _ _ _ _ => trivial) (DB2.inv_empty P)
  intro d c d' a hi _ hc
  cases c with
  | renew => cases hc; exact DB2.inv_empty P
  | run l =>
    obtain ⟨⟨d1, r⟩, h1, h2⟩ := Out.bind_eq_ok.mp hc
    cases h2
    by_cases hv : DB2.validate l = none
    · obtain ⟨d2, r2, g1, g2⟩ := DB2.run_inv (fun _ => true) l hi hv
      rw [g1] at h1; cases h1; exact g2
    · have : (DB2.validate l == none) = false := beq_false_of_ne hv
      simp [DB2.run, this] at h1
  | load rows =>
    obtain ⟨⟨d1, r⟩, h1, h2⟩ := Out.bind_eq_ok.mp hc
    cases h2
    by_cases hr : rows = []
    · subst hr; cases h1
    · obtain ⟨d2, r2, g1, g2⟩ := DB2.loadRows_inv P rows d hi hr
      rw [g1] at h1; cases h1; exact g2

/-- The refusals of `Restore` and `Expose`. -/
def Refused2 : DB2.Resp → Prop
  | .restore s x t => (s = .error ∨ s = .missing) ∧ x = [] ∧ t = 0
  | .expose b => b = false
  | _ => False

/-- Requests that verify the row. -/
def Guarded2 : DB2.Req → Prop
  | .restore _ => True
  | .expose _ => True
  | _ => False

/-- **C64 (SVR2)**, in part. After any history, rows and hashes of the tree are replaced with anything. Unless hashes collide, Restore and
Expose on a row refuse and change nothing, or the row still has its genuine content and the answer is the genuine one. Missing: the size field
of the overwritten row is at most 48 (see `C06_db2_size_field_ub`). -/
theorem C64_db2_partial (P : Prims) (H : List Bytes → Bytes) (zero : Bytes) (es : List (Ev DB2.Log (Option DB2.RowPB))) (w : Want DB2.DB)
    (as : List (Ans (Res DB2.Resp DB2.Err))) (h : Want.Steps (db2 P) (Want.start DB2.empty) es w as) :
    ∃ s, play (db2 P) H zero DB2.empty es = .ok (s, as) ∧ ∀ d mem log r r0, Written (db2 P) H w s d mem log.id →
      w.db.find log.id = some r0 → d.find log.id = some r → r.data.length = 48 → r.dataSize.toNat ≤ 48 →
      (hashFrom (P.sip16 (DB2.rowRaw log.id r)) = hashFrom (P.sip16 (DB2.rowRaw log.id r0)) → DB2.rowRaw log.id r = DB2.rowRaw log.id r0) →
      DB2.validate log = none → Guarded2 log.req →
      (∃ a, consult (db2 P) H (s.write d mem) (.run log) = .ok (seen (db2 P) (s.write d mem), .run a) ∧ Refused2 a) ∨
      (DB2Rows.content r = DB2Rows.content r0 ∧ ∃ a, answer (consult (db2 P) H (s.write d mem) (.run log)) = .ok (.run a) ∧
        answer (DB2.run P (fun _ => true) w.db log) = .ok a) := by
  obtain ⟨s, T, h1, r1⟩ := play_rel (db2_lawful P) H zero rfl h
  have hi := db2_inv h
  refine ⟨s, h1, ?_⟩
  rintro d mem ⟨id, req⟩ r r0 hw hr0 hr hlen hsz hcoll hval hreq
  have h0 := hi id r0 hr0
  have hx : ((db2 P).leaves w.db).find id = some r0.leaf := by
    show (OMap.mapV _ w.db).find id = _
    rw [OMap.find_mapV, hr0]; rfl
  have ht := r1.tampered hw.settled hx d mem hw.root hw.apart
  rw [r1.consult d mem hw.keys]
  generalize hp : pathOf H (s.write d mem).tree (s.write d mem).loc = path at ht ⊢
  have hs : (seen (db2 P) (s.write d mem)).find id = some { r with leaf := leafOf (s.write d mem).tree (s.write d mem).loc id } := by
    show (OMap.mapV _ d).find id = _
    rw [OMap.find_mapV, hr]; rfl
  generalize leafOf (s.write d mem).tree (s.write d mem).loc id = lf at ht hs
  generalize seen (db2 P) (s.write d mem) = sd at hs ⊢
  have hv : DB2.verify P path id { r with leaf := lf } = .ok (ctEq (hashFrom (P.sip16 (DB2.rowRaw id r))) lf && path id) := DB2.verify_ok hsz
  have hrun : ∀ (pa : Bytes → Bool) (db : DB2.DB), DB2.run P pa db ⟨id, req⟩ = match req with
      | .restore g => DB2.restore P pa db id g
      | .expose x => DB2.expose P pa db id x
      | _ => DB2.run P pa db ⟨id, req⟩ := by
    intro pa db
    have hid : (id.length == DB2.BACKUP_ID_SIZE) = true := by simpa using ((DB2.validate_iff _).mp hval).1
    cases req <;> simp only [DB2.run, hval, hid, beq_self_eq_true, Out.check_true, Out.bind_ok]
  rw [db2_run]
  cases hb : (ctEq (hashFrom (P.sip16 (DB2.rowRaw id r))) lf && path id) with
  | false =>
    left
    rw [hb] at hv
    rw [hrun path sd]
    cases req with
    | restore g =>
      simp only [DB2.restore, hs]
      by_cases hst : r.state ≠ DB2.AVAILABLE
      · rw [if_pos hst]; exact ⟨_, rfl, .inr rfl, rfl, rfl⟩
      · rw [if_neg hst, hv]; exact ⟨_, rfl, .inl rfl, rfl, rfl⟩
    | expose x =>
      simp only [DB2.expose, hs, hv]
      exact ⟨_, rfl, rfl⟩
    | _ => exact hreq.elim
  | true =>
    right
    rw [hb] at hv
    obtain ⟨b1, b2⟩ := Bool.and_eq_true_iff.mp hb
    have hlf := ht b2
    rw [ctEq_iff, hlf, h0.leaf_eq] at b1
    obtain ⟨_, e1, e2, e3, e4, e5⟩ := DB2.rowRaw_inj h0.id_len h0.id_len hsz h0.size_le hlen h0.data_len (hcoll b1)
    refine ⟨by simp [DB2Rows.content, e1, e2, e3, e5, ← e4], ?_⟩
    have hv0 : DB2.verify P (fun _ => true) id r0 = .ok true := by
      rw [DB2.verify_ok h0.size_le, Bool.and_true]
      congr 1
      rw [ctEq_iff]; exact h0.leaf_eq.symm
    rw [hrun path sd, hrun _ w.db]
    cases req with
    | restore g =>
      obtain ⟨st, tr, sz, da, pi, _⟩ := r
      simp only at e1 e2 e3 e4 e5 hsz hlen hv hs
      subst e1 e2 e3 e5
      simp only [DB2.restore, hs, hr0, hv, hv0, e4, Out.bind_ok]
      by_cases hst : r0.state ≠ DB2.AVAILABLE
      · rw [if_pos hst, if_pos hst]; exact ⟨_, rfl, rfl⟩
      · rw [if_neg hst, if_neg hst]
        simp only [Bool.not_true, Bool.false_eq_true, if_false]
        by_cases hg : ctEq g r0.pin = true
        · rw [if_pos hg, if_pos hg]; exact ⟨_, rfl, rfl⟩
        · rw [if_neg hg, if_neg hg]
          by_cases hz : r0.tries - 1 = 0
          · rw [if_pos hz, if_pos hz]; exact ⟨_, rfl, rfl⟩
          · rw [if_neg hz, if_neg hz, DB2.updateLeaf_ok (by exact hsz), DB2.updateLeaf_ok (by exact h0.size_le)]
            exact ⟨_, rfl, rfl⟩
    | expose x =>
      have hpre : ctEqPrefix r.data x r.dataSize.toNat = ctEqPrefix r0.data x r0.dataSize.toNat := by
        rw [Bool.eq_iff_iff, ctEqPrefix_iff, ctEqPrefix_iff, e3, hlen, h0.data_len]
        rw [e3] at e4
        rw [e4]
      obtain ⟨st, tr, sz, da, pi, _⟩ := r
      simp only at e1 e2 e3 e4 e5 hsz hlen hv hs hpre
      subst e1 e2 e3 e5
      simp only [DB2.expose, hs, hr0, hv, hv0, hpre, Out.bind_ok, Bool.not_true, Bool.false_eq_true, if_false]
      by_cases hc : (!ctEqPrefix r0.data x r0.dataSize.toNat) = true
      · rw [if_pos hc, if_pos hc]; exact ⟨_, rfl, rfl⟩
      · rw [if_neg hc, if_neg hc]
        by_cases hst : r0.state = DB2.POPULATED ∨ r0.state = DB2.AVAILABLE
        · rw [if_pos hst, if_pos hst, DB2.updateLeaf_ok (by exact hsz), DB2.updateLeaf_ok (by exact h0.size_le)]
          exact ⟨_, rfl, rfl⟩
        · rw [if_neg hst, if_neg hst]; exact ⟨_, rfl, rfl⟩
    | _ => exact hreq.elim

/-- If the row of the log's account is the same in two databases and its walk succeeds in the first, the answers agree. -/
theorem same_answer {V Lg Rs : Type} {run : (Bytes → Bool) → OMap Bytes V → Lg → Out (OMap Bytes V × Rs)} {key : Lg → Bytes}
    (hloc : ∀ path l, ∃ f : Option V → Out (Option V × Rs), ∀ db, run path db l = (do let (o, r) ← f (db.find (key l)); pure (db.set (key l) o, r)))
    (hasks : ∀ path d l, (∀ id, d.find id ≠ none → path id = true) → run path d l = run (fun _ => true) d l)
    {path : Bytes → Bool} {d d0 : OMap Bytes V} {l : Lg} {r : V} (h : d.find (key l) = some r) (h0 : d0.find (key l) = some r)
    (hp : path (key l) = true) : answer (run path d l) = answer (run (fun _ => true) d0 l) := by
  obtain ⟨f, hf⟩ := hloc path l
  obtain ⟨g, hg⟩ := hloc (fun _ => true) l
  have hone : answer (run path (OMap.empty.insert (key l) r) l) = answer (run (fun _ => true) (OMap.empty.insert (key l) r) l) := by
    rw [hasks]
    intro id hid
    rw [OMap.find_insert] at hid
    by_cases e : key l = id
    · rw [← e]; exact hp
    · rw [if_neg e] at hid; exact absurd rfl hid
  have hsnd : ∀ (k : Option V → Out (Option V × Rs)) (x : OMap Bytes V), x.find (key l) = some r →
      answer (do let (o, y) ← k (x.find (key l)); pure (x.set (key l) o, y)) = answer (k (some r)) := by
    intro k x hx
    rw [hx]
    cases k (some r) <;> rfl
  rw [hf, hg, hsnd f _ (by rw [OMap.find_insert, if_pos rfl]), hsnd g _ (by rw [OMap.find_insert, if_pos rfl])] at hone
  rw [hf, hg, hsnd f _ h, hsnd g _ h0, hone]

/-- The walks a face asks for are those its `run` asks for. -/
theorem asks_of {D L R A E : Type} {F : Face D L R (Res A E)} (hF : Lawful F) {run : (Bytes → Bool) → D → L → Out (D × A)}
    (hrun : ∀ path d l, F.call path d (.run l) = (do let (d', a) ← run path d l; .ok (d', .run a))) (path : Bytes → Bool) (d : D) (l : L)
    (h : ∀ id, (F.leaves d).find id ≠ none → path id = true) : run path d l = run (fun _ => true) d l := by
  have := hF.asks path d (.run l) h
  rw [hrun, hrun] at this
  rcases h1 : run path d l with ⟨x, y⟩ | _ | _ <;> rcases h2 : run (fun _ => true) d l with ⟨x', y'⟩ | _ | _ <;> rw [h1, h2] at this <;> first | rfl | (cases this; first | done | rfl)

theorem answer_run {D A E : Type} (o : Out (D × A)) (a : A) (h : answer o = .ok a) :
    answer (do let (d', a) ← o; Out.ok (d', (Res.run a : Res A E))) = .ok (.run a) := by
  cases o with
  | ok p => cases h; rfl
  | abort => cases h
  | ub => cases h

theorem db3_inv {P : DB3.Prims3} {es : List (Ev DB3.Log (Option DB3.RowPB))} {w : Want DB3.DB} {as : List (Ans (Res DB3.Resp DB3.Err))}
    (h : Want.Steps (db3 P) (Want.start DB3.empty) es w as) : DB3.Inv P w.db := by
  refine Want.Steps.keep (I := DB3.Inv P) (ok := fun _ => True) ?_ h (fun _ _ _ _ => trivial) (DB3.inv_empty P)
  intro d c d' a hi _ hc
  cases c with
  | renew => cases hc; exact DB3.inv_empty P
  | run l =>
    obtain ⟨⟨d1, r⟩, h1, h2⟩ := Out.bind_eq_ok.mp hc
    cases h2
    by_cases hv : DB3.validate l = none
    · obtain ⟨d2, r2, g1, g2⟩ := DB3.run_inv P (fun _ => true) l hi hv
      rw [g1] at h1; cases h1; exact g2
    · have : (DB3.validate l == none) = false := beq_false_of_ne hv
      simp [DB3.run, this] at h1
  | load rows =>
    obtain ⟨⟨d1, r⟩, h1, h2⟩ := Out.bind_eq_ok.mp hc
    cases h2
    obtain ⟨d2, r2, g1, g2⟩ := DB3.loadRows_inv P rows d hi
    rw [g1] at h1; cases h1; exact g2

/-- **C64 (SVR3)**. After any history, rows and hashes of the tree are replaced with anything. Unless hashes collide, Evaluate on a row answers ERROR
and changes nothing, or the row has its genuine key and counter and the answer is the genuine one. -/
theorem C64_db3 (P : DB3.Prims3) (H : List Bytes → Bytes) (zero : Bytes) (es : List (Ev DB3.Log (Option DB3.RowPB))) (w : Want DB3.DB)
    (as : List (Ans (Res DB3.Resp DB3.Err))) (h : Want.Steps (db3 P) (Want.start DB3.empty) es w as) :
    ∃ s, play (db3 P) H zero DB3.empty es = .ok (s, as) ∧ ∀ d mem id b pk r r0, Written (db3 P) H w s d mem id →
      w.db.find id = some r0 → d.find id = some r →
      (hashFrom (P.sip16 (DB3.rowRaw id r)) = hashFrom (P.sip16 (DB3.rowRaw id r0)) → DB3.rowRaw id r = DB3.rowRaw id r0) →
      DB3.validate ⟨id, .evaluate b, pk⟩ = none →
      consult (db3 P) H (s.write d mem) (.run ⟨id, .evaluate b, pk⟩) = .ok (seen (db3 P) (s.write d mem), .run (.evaluate .error [] 0)) ∨
      ((r.priv, r.tries) = (r0.priv, r0.tries) ∧ ∃ a, answer (consult (db3 P) H (s.write d mem) (.run ⟨id, .evaluate b, pk⟩)) = .ok (.run a) ∧
        answer (DB3.run P (fun _ => true) w.db ⟨id, .evaluate b, pk⟩) = .ok a) := by
  obtain ⟨s, T, h1, r1⟩ := play_rel (db3_lawful P) H zero rfl h
  have hi := db3_inv h
  refine ⟨s, h1, ?_⟩
  intro d mem id b pk r r0 hw hr0 hr hcoll hval
  have h0 := hi id r0 hr0
  have hx : ((db3 P).leaves w.db).find id = some r0.leaf := by
    show (OMap.mapV _ w.db).find id = _
    rw [OMap.find_mapV, hr0]; rfl
  have ht := r1.tampered hw.settled hx d mem hw.root hw.apart
  rw [r1.consult d mem hw.keys]
  generalize pathOf H (s.write d mem).tree (s.write d mem).loc = path at ht ⊢
  have hs : (seen (db3 P) (s.write d mem)).find id = some { r with leaf := leafOf (s.write d mem).tree (s.write d mem).loc id } := by
    show (OMap.mapV _ d).find id = _
    rw [OMap.find_mapV, hr]; rfl
  generalize leafOf (s.write d mem).tree (s.write d mem).loc id = lf at ht hs
  generalize seen (db3 P) (s.write d mem) = sd at hs ⊢
  have hv : DB3.verify P path id { r with leaf := lf } = (ctEq (hashFrom (P.sip16 (DB3.rowRaw id r))) lf && path id) := rfl
  rw [db3_run]
  cases hb : (ctEq (hashFrom (P.sip16 (DB3.rowRaw id r))) lf && path id) with
  | false =>
    left
    rw [hb] at hv
    have hlb := ((DB3.validate_iff _).mp hval).2
    have hid := DB3.strToArr_self ((DB3.validate_iff _).mp hval).1
    have hb32 : strToArr DB3.ELEMENT_SIZE b = some b := DB3.strToArr_self hlb
    simp only [DB3.run, hval, beq_self_eq_true, Out.check_true, Out.bind_ok, hid, DB3.evaluate, hb32, hs, hv]
    rfl
  | true =>
    right
    obtain ⟨b1, b2⟩ := Bool.and_eq_true_iff.mp hb
    have hlf := ht b2
    rw [ctEq_iff, hlf, h0.leaf_eq] at b1
    obtain ⟨_, e1, e2⟩ := DB3.rowRaw_inj h0.id_len h0.id_len (hcoll b1)
    refine ⟨by rw [e1, e2], ?_⟩
    have hs' : sd.find id = some r0 := by
      rw [hs, hlf]
      obtain ⟨p, t, _⟩ := r
      simp only at e1 e2
      subst e1 e2
      rfl
    have hrun := DB3.run_inv P (fun _ => true) ⟨id, .evaluate b, pk⟩ hi hval
    obtain ⟨d2, a, g1, _⟩ := hrun
    have := same_answer (run := DB3.run P) (key := fun l => l.id) (DB3.run_local P)
      (fun path d l hp => asks_of (db3_lawful P) (db3_run P) path d l (fun id hid => hp id (fun e => hid (by
        show (OMap.mapV _ d).find id = none
        rw [OMap.find_mapV, e]; rfl))))
      (l := ⟨id, .evaluate b, pk⟩) hs' hr0 b2
    rw [g1] at this
    exact ⟨a, answer_run _ a this, by rw [g1]; rfl⟩

theorem db5_inv {P : DB5.Prims5} {es : List (Ev DB5.Log (Option DB5.RowPB))} {w : Want DB5.DB} {as : List (Ans (Res DB5.Resp DB5.Err))}
    (h : Want.Steps (db5 P) (Want.start DB5.empty) es w as) : DB5.Inv P w.db := by
  refine Want.Steps.keep (I := DB5.Inv P) (ok := fun _ => True) ?_ h (fun _ _ _ _ => trivial) (DB5.inv_empty P)
  intro d c d' a hi _ hc
  cases c with
  | renew => cases hc; exact DB5.inv_empty P
  | run l =>
    obtain ⟨⟨d1, r⟩, h1, h2⟩ := Out.bind_eq_ok.mp hc
    cases h2
    by_cases hv : DB5.validate l = none
    · obtain ⟨d2, r2, g1, g2⟩ := DB5.run_inv P (fun _ => true) l hi hv
      rw [g1] at h1; cases h1; exact g2
    · have : (DB5.validate l == none) = false := beq_false_of_ne hv
      simp [DB5.run, this] at h1
  | load rows =>
    obtain ⟨⟨d1, r⟩, h1, h2⟩ := Out.bind_eq_ok.mp hc
    cases h2
    by_cases hr : rows = []
    · subst hr; cases h1
    · obtain ⟨d2, r2, g1, g2⟩ := DB5.loadRows_inv P rows d hi hr
      rw [g1] at h1; cases h1; exact g2

/-- **C64 (SVR5)**. After any history, rows and hashes of the tree are replaced with anything. Unless hashes collide, Download of a row answers
MERKLE_FAILURE and releases nothing, or the row has its genuine data and the answer is the genuine one. -/
theorem C64_db5 (P : DB5.Prims5) (H : List Bytes → Bytes) (zero : Bytes) (es : List (Ev DB5.Log (Option DB5.RowPB))) (w : Want DB5.DB)
    (as : List (Ans (Res DB5.Resp DB5.Err))) (h : Want.Steps (db5 P) (Want.start DB5.empty) es w as) :
    ∃ s, play (db5 P) H zero DB5.empty es = .ok (s, as) ∧ ∀ d mem id p r r0, Written (db5 P) H w s d mem id →
      w.db.find id = some r0 → d.find id = some r →
      (hashFrom (P.sip16 (DB5.rowRaw id r)) = hashFrom (P.sip16 (DB5.rowRaw id r0)) → DB5.rowRaw id r = DB5.rowRaw id r0) →
      DB5.validate ⟨id, .download p⟩ = none →
      consult (db5 P) H (s.write d mem) (.run ⟨id, .download p⟩) = .ok (seen (db5 P) (s.write d mem), .run (.download .merkleFailure [])) ∨
      (r.data = r0.data ∧ ∃ a, answer (consult (db5 P) H (s.write d mem) (.run ⟨id, .download p⟩)) = .ok (.run a) ∧
        answer (DB5.run P (fun _ => true) w.db ⟨id, .download p⟩) = .ok a) := by
  obtain ⟨s, T, h1, r1⟩ := play_rel (db5_lawful P) H zero rfl h
  have hi := db5_inv h
  refine ⟨s, h1, ?_⟩
  intro d mem id p r r0 hw hr0 hr hcoll hval
  have h0 := hi id r0 hr0
  have hx : ((db5 P).leaves w.db).find id = some r0.leaf := by
    show (OMap.mapV _ w.db).find id = _
    rw [OMap.find_mapV, hr0]; rfl
  have ht := r1.tampered hw.settled hx d mem hw.root hw.apart
  rw [r1.consult d mem hw.keys]
  generalize pathOf H (s.write d mem).tree (s.write d mem).loc = path at ht ⊢
  have hs : (seen (db5 P) (s.write d mem)).find id = some { r with leaf := leafOf (s.write d mem).tree (s.write d mem).loc id } := by
    show (OMap.mapV _ d).find id = _
    rw [OMap.find_mapV, hr]; rfl
  generalize leafOf (s.write d mem).tree (s.write d mem).loc id = lf at ht hs
  generalize seen (db5 P) (s.write d mem) = sd at hs ⊢
  have hv : DB5.verify P path id { r with leaf := lf } = (ctEq (hashFrom (P.sip16 (DB5.rowRaw id r))) lf && path id) := rfl
  rw [db5_run]
  cases hb : (ctEq (hashFrom (P.sip16 (DB5.rowRaw id r))) lf && path id) with
  | false =>
    left
    rw [hb] at hv
    have hid : (id.length == DB5.BACKUP_ID_SIZE) = true := by simpa using ((DB5.validate_iff _).mp hval).1
    simp only [DB5.run, hval, beq_self_eq_true, Out.check_true, Out.bind_ok, hid, DB5.download, hs, hv]
    rfl
  | true =>
    right
    obtain ⟨b1, b2⟩ := Bool.and_eq_true_iff.mp hb
    have hlf := ht b2
    rw [ctEq_iff, hlf, h0.leaf_eq] at b1
    obtain ⟨_, e1⟩ := DB5.rowRaw_inj h0.id_len h0.id_len (hcoll b1)
    refine ⟨e1, ?_⟩
    have hs' : sd.find id = some r0 := by
      rw [hs, hlf]
      obtain ⟨x, _⟩ := r
      simp only at e1
      subst e1
      rfl
    obtain ⟨d2, a, g1, _⟩ := DB5.run_inv P (fun _ => true) ⟨id, .download p⟩ hi hval
    have := same_answer (run := DB5.run P) (key := fun l => l.id) (DB5.run_local P)
      (fun path d l hp => asks_of (db5_lawful P) (db5_run P) path d l (fun id hid => hp id (fun e => hid (by
        show (OMap.mapV _ d).find id = none
        rw [OMap.find_mapV, e]; rfl))))
      (l := ⟨id, .download p⟩) hs' hr0 b2
    rw [g1] at this
    exact ⟨a, answer_run _ a this, by rw [g1]; rfl⟩

theorem db4_inv {P : DB4.Prims4} (hs : DB4.SaddOK P) {es : List (Ev DB4.Log (Option DB4.RowPB))} {w : Want DB4.DB} {as : List (Ans (Res DB4.Effect DB4.Err))}
    (h : Want.Steps (db4 P) (Want.start DB4.empty) es w as)
    (hw : ∀ rows fresh temp, Ev.call (.load rows) fresh temp ∈ es → ∀ o ∈ rows, DB4.Wire o) : DB4.Inv P w.db := by
  refine Want.Steps.keep (I := DB4.Inv P) (ok := fun c => ∀ rows, c = .load rows → ∀ o ∈ rows, DB4.Wire o) ?_ h ?_ (DB4.inv_empty P)
  · intro d c d' a hi hok hc
    cases c with
    | renew => cases hc; exact DB4.inv_empty P
    | run l =>
      obtain ⟨⟨d1, r⟩, h1, h2⟩ := Out.bind_eq_ok.mp hc
      cases h2
      by_cases hv : DB4.validate P l = none
      · obtain ⟨d2, r2, g1, g2, _⟩ := DB4.run_cases P hs (fun _ => true) d l hi hv
        rw [g1] at h1; cases h1; exact g2
      · have : (DB4.validate P l == none) = false := beq_false_of_ne hv
        simp [DB4.run, this] at h1
    | load rows =>
      obtain ⟨⟨d1, r⟩, h1, h2⟩ := Out.bind_eq_ok.mp hc
      cases h2
      obtain ⟨d2, r2, g1, g2⟩ := DB4.loadRows_inv P rows d hi (hok rows rfl)
      rw [g1] at h1; cases h1; exact g2
  · intro c fresh temp hm rows e
    subst e
    exact hw rows fresh temp hm

/-- The refusals of `Restore1`, `RotateStart`, `RotateCommit` and `RotateRollback`. -/
def Refused4 : DB4.Resp → Prop
  | .restore1 s x t => s = .merkleFailure ∧ x = [] ∧ t = 0
  | .rotateStart s => s ≠ .ok
  | .rotateCommit s => s ≠ .ok
  | .rotateRollback s => s ≠ .ok
  | _ => False

/-- Requests that verify the row. -/
def Guarded4 : DB4.Req → Prop
  | .restore1 _ => True
  | .rotateStart _ _ _ => True
  | .rotateCommit _ => True
  | .rotateRollback _ => True
  | _ => False

theorem refused4 {P : DB4.Prims4} {path : Bytes → Bool} {db : DB4.DB} {log : DB4.Log} {r : DB4.Row} (hr : db.rows.find log.id = some r)
    (hne : DB4.verify P path log.id r (db.rot.find log.id) = false) (hv : DB4.validate P log = none) (hg : Guarded4 log.req) :
    ∃ a, DB4.run P path db log = .ok (db, ⟨a, none⟩) ∧ Refused4 a := by
  obtain ⟨id, req⟩ := log
  have hv' := (DB4.validate_iff P _).mp hv
  simp only [DB4.run, hv, beq_self_eq_true, Out.check_true, Out.bind_ok, DB3.strToArr_self hv'.1]
  simp only at hr hne
  cases req with
  | restore1 b => exact ⟨.restore1 .merkleFailure [] 0, by simp [DB4.restore1, hr, hne], rfl, rfl, rfl⟩
  | rotateStart v od ed =>
    obtain ⟨_, _, h2, h3⟩ := hv'
    simp only [DB4.rotateStart, hr]
    cases hrr : db.rot.find id with
    | some x => exact ⟨_, rfl, fun h => by cases h⟩
    | none =>
      rw [hrr] at hne
      simp only
      by_cases hve : v = r.version
      · rw [if_pos hve]; exact ⟨_, rfl, fun h => by cases h⟩
      · rw [if_neg hve]
        have hle : (decide (ed.length ≤ 32)) = true := by simp [h3]
        simp only [h2, hle, Out.check_true, Out.bind_ok]
        rw [if_neg (by omega)]
        simp only [hne, Bool.not_false, if_true]
        exact ⟨_, rfl, fun h => by cases h⟩
  | rotateCommit v =>
    simp only [DB4.rotateCommit, hr]
    cases hrr : db.rot.find id with
    | none => exact ⟨_, rfl, fun h => by cases h⟩
    | some x =>
      rw [hrr] at hne
      simp only [hne, Bool.not_false, if_true]
      split
      · exact ⟨_, rfl, fun h => by cases h⟩
      · exact ⟨_, rfl, fun h => by cases h⟩
  | rotateRollback v =>
    simp only [DB4.rotateRollback, hr]
    cases hrr : db.rot.find id with
    | none => exact ⟨_, rfl, fun h => by cases h⟩
    | some x =>
      rw [hrr] at hne
      simp only [hne, Bool.not_false, if_true]
      split
      · exact ⟨_, rfl, fun h => by cases h⟩
      · exact ⟨_, rfl, fun h => by cases h⟩
  | _ => exact hg.elim

theorem same_answer4 (P : DB4.Prims4) {path : Bytes → Bool} {d d0 : DB4.DB} {l : DB4.Log} {r : DB4.Row}
    (h : d.rows.find l.id = some r) (h0 : d0.rows.find l.id = some r) (hrot : d.rot.find l.id = d0.rot.find l.id)
    (hp : path l.id = true) : answer (DB4.run P path d l) = answer (DB4.run P (fun _ => true) d0 l) := by
  obtain ⟨f, hf⟩ := DB4.run_local P path l
  obtain ⟨g, hg⟩ := DB4.run_local P (fun _ => true) l
  have e0 : DB4.get d0 l.id = (some r, d0.rot.find l.id) := by simp [DB4.get, h0]
  have e1 : DB4.get d l.id = (some r, d0.rot.find l.id) := by simp [DB4.get, h, hrot]
  have e2 := DB4.get_put DB4.empty l.id (some r, d0.rot.find l.id)
  have hone : answer (DB4.run P path (DB4.put DB4.empty l.id (some r, d0.rot.find l.id)) l) =
      answer (DB4.run P (fun _ => true) (DB4.put DB4.empty l.id (some r, d0.rot.find l.id)) l) := by
    rw [asks_of (db4_lawful P) (db4_run P) path]
    intro id hid
    by_cases e : l.id = id
    · rw [← e]; exact hp
    · refine absurd ?_ hid
      show (OMap.mapV _ (DB4.put DB4.empty l.id _).rows).find id = none
      rw [OMap.find_mapV, show (DB4.put DB4.empty l.id (some r, d0.rot.find l.id)).rows.find id = none from
        congrArg Prod.fst (DB4.get_put_ne DB4.empty l.id id (some r, d0.rot.find l.id) e)]
      rfl
  have hsnd : ∀ (k : Option DB4.Row × Option DB4.Rot → Out ((Option DB4.Row × Option DB4.Rot) × DB4.Effect)) (x : DB4.DB) (v),
      DB4.get x l.id = v → answer (do let (o, y) ← k (DB4.get x l.id); pure (DB4.put x l.id o, y)) = answer (k v) := by
    intro k x v hx
    rw [hx]
    cases k v <;> rfl
  rw [hf, hg, hsnd f _ _ e2, hsnd g _ _ e2] at hone
  rw [hf, hg, hsnd f _ _ e1, hsnd g _ _ e0, hone]

/-- **C64 (SVR4)**, in part. After any history whose loaded batches satisfy `Wire`, rows, pending rotations and hashes of the tree are replaced
with anything. Unless hashes collide, Restore1 and the rotation requests on a row refuse, change nothing and release nothing, or the row and its
rotation have their genuine content and the answer is the genuine one. Missing: an all-zero pending rotation is hashed like no rotation. -/
theorem C64_db4_partial (P : DB4.Prims4) (hsadd : DB4.SaddOK P) (H : List Bytes → Bytes) (zero : Bytes) (es : List (Ev DB4.Log (Option DB4.RowPB)))
    (w : Want DB4.DB) (as : List (Ans (Res DB4.Effect DB4.Err))) (h : Want.Steps (db4 P) (Want.start DB4.empty) es w as)
    (hwire : ∀ rows fresh temp, Ev.call (.load rows) fresh temp ∈ es → ∀ o ∈ rows, DB4.Wire o) :
    ∃ s, play (db4 P) H zero DB4.empty es = .ok (s, as) ∧ ∀ d mem log r r0, Written (db4 P) H w s d mem log.id →
      w.db.rows.find log.id = some r0 → d.rows.find log.id = some r → DB4.Shape log.id r → (∀ x, d.rot.find log.id = some x → DB4.RotShape x) →
      d.rot.find log.id ≠ some ⟨0, zeros 32, zeros 32⟩ →
      (hashFrom (P.sip16 (DB4.rowRaw log.id r (d.rot.find log.id))) = hashFrom (P.sip16 (DB4.rowRaw log.id r0 (w.db.rot.find log.id))) →
        DB4.rowRaw log.id r (d.rot.find log.id) = DB4.rowRaw log.id r0 (w.db.rot.find log.id)) →
      DB4.validate P log = none → Guarded4 log.req →
      (∃ a, consult (db4 P) H (s.write d mem) (.run log) = .ok (seen (db4 P) (s.write d mem), .run ⟨a, none⟩) ∧ Refused4 a) ∨
      ((r.auth, r.oprf, r.enc, r.zero, r.version, r.tries, d.rot.find log.id) =
          (r0.auth, r0.oprf, r0.enc, r0.zero, r0.version, r0.tries, w.db.rot.find log.id) ∧
        ∃ a, answer (consult (db4 P) H (s.write d mem) (.run log)) = .ok (.run a) ∧ answer (DB4.run P (fun _ => true) w.db log) = .ok a) := by
  obtain ⟨s, T, h1, r1⟩ := play_rel (db4_lawful P) H zero rfl h
  have hi := db4_inv hsadd h hwire
  refine ⟨s, h1, ?_⟩
  intro d mem log r r0 hw hr0 hr hsh hsx hz hcoll hval hreq
  have h0 := DB4.inv_row hi hr0
  have h0' : ∀ x, w.db.rot.find log.id = some x → DB4.RotOK P x := fun x hx => (DB4.inv_rot hi hx).1
  have hx : ((db4 P).leaves w.db).find log.id = some r0.leaf := by
    show (OMap.mapV _ w.db.rows).find log.id = _
    rw [OMap.find_mapV, hr0]; rfl
  have ht := r1.tampered hw.settled hx d mem hw.root hw.apart
  rw [r1.consult d mem hw.keys]
  generalize pathOf H (s.write d mem).tree (s.write d mem).loc = path at ht ⊢
  have hs : (seen (db4 P) (s.write d mem)).rows.find log.id = some { r with leaf := leafOf (s.write d mem).tree (s.write d mem).loc log.id } := by
    show (OMap.mapV _ d.rows).find log.id = _
    rw [OMap.find_mapV, hr]; rfl
  have hsr : (seen (db4 P) (s.write d mem)).rot.find log.id = d.rot.find log.id := rfl
  generalize leafOf (s.write d mem).tree (s.write d mem).loc log.id = lf at ht hs
  generalize seen (db4 P) (s.write d mem) = sd at hs hsr ⊢
  have hv : DB4.verify P path log.id { r with leaf := lf } (sd.rot.find log.id) =
      (ctEq (hashFrom (P.sip16 (DB4.rowRaw log.id r (d.rot.find log.id)))) lf && path log.id) := by rw [hsr]; rfl
  rw [db4_run]
  cases hb : (ctEq (hashFrom (P.sip16 (DB4.rowRaw log.id r (d.rot.find log.id)))) lf && path log.id) with
  | false =>
    left
    rw [hb] at hv
    obtain ⟨a, h2, h3⟩ := refused4 hs hv hval hreq
    exact ⟨a, by rw [h2]; rfl, h3⟩
  | true =>
    right
    obtain ⟨b1, b2⟩ := Bool.and_eq_true_iff.mp hb
    have hlf := ht b2
    rw [ctEq_iff, hlf, h0.leaf_eq] at b1
    obtain ⟨_, e1, e2, e3, e4, e5, e6, e7⟩ := DB4.rowRaw_inj hsh h0.shape (hcoll b1)
    have e8 := DB4.rotRaw_inj' hsx hz h0' e7
    refine ⟨by rw [e1, e2, e3, e4, e5, e6, e8], ?_⟩
    have hs' : sd.rows.find log.id = some r0 := by
      rw [hs, hlf]
      obtain ⟨x1, x2, x3, x4, x5, x6, _⟩ := r
      simp only at e1 e2 e3 e4 e5 e6
      subst e1 e2 e3 e4 e5 e6
      rfl
    obtain ⟨d2, a, g1, _⟩ := DB4.run_cases P hsadd (fun _ => true) w.db log hi hval
    have := same_answer4 P hs' hr0 (hsr.trans e8) b2
    rw [g1] at this
    exact ⟨a, answer_run _ a this, by rw [g1]; rfl⟩

/-! ## Examples -/

section Examples
open DB2Rows (ida idb sec pinA P0)

theorem hmem (m : OMap Bytes Bytes) (id : Bytes) (hm : m.find id ≠ none) : ∃ p ∈ m.list, p.1 = id := by
  obtain ⟨v, hv⟩ := Option.ne_none_iff_exists'.mp hm
  exact ⟨(id, v), OMap.mem_list.mpr hv, rfl⟩

/-- A step of the database, with the conditions on addresses in a form that can be computed. -/
theorem step_call (F : Face D L R A) (w : Want D) (c : Call L R) (fresh : Bytes → Nat) (temp : Option Nat) (d : D) (a : A)
    (hset : w.others.settled) (h : F.call (fun _ => true) w.db c = .ok (d, a))
    (hfree : ∀ p ∈ (F.leaves d).list, (F.leaves w.db).find p.1 = none → (w.others (fresh p.1)).isNone = true ∧ (∀ x ∈ temp, fresh p.1 ≠ x) ∧
      (∀ q ∈ (F.leaves w.db).list, w.loc q.1 ≠ fresh p.1) ∧
      ∀ q ∈ (F.leaves d).list, (F.leaves w.db).find q.1 = none → fresh p.1 = fresh q.1 → p.1 = q.1)
    (htemp : ∀ x ∈ temp, (w.others x).isNone = true ∧ ∀ q ∈ (F.leaves w.db).list, w.loc q.1 ≠ x) :
    Want.Step F w (.call c fresh temp) ⟨d, fun id => match (F.leaves w.db).find id with | none => fresh id | some _ => w.loc id, w.others⟩ (.db a) := by
  refine .call w c fresh temp d a hset ?_ ?_ ?_ h
  · intro id h0 h1 hu
    obtain ⟨p, hp, rfl⟩ := hmem _ id h1
    obtain ⟨a1, _, a3, _⟩ := hfree p hp h0
    rcases hu with hu | ⟨k, hk, e⟩
    · exact hu (Option.isNone_iff_eq_none.mp a1)
    · obtain ⟨q, hq, rfl⟩ := hmem _ k hk
      exact a3 q hq e
  · intro id id' h0 h0' h1 h1' e
    obtain ⟨p, hp, rfl⟩ := hmem _ id h1
    obtain ⟨q, hq, rfl⟩ := hmem _ id' h1'
    exact (hfree p hp h0).2.2.2 q hq h0' e
  · intro x hx
    refine ⟨?_, ?_⟩
    · rintro (hu | ⟨k, hk, e⟩)
      · exact hu (Option.isNone_iff_eq_none.mp (htemp x hx).1)
      · obtain ⟨q, hq, rfl⟩ := hmem _ k hk
        exact (htemp x hx).2 q hq e
    · intro id h0 h1
      obtain ⟨p, hp, rfl⟩ := hmem _ id h1
      exact (hfree p hp h0).2.1 x hx

/-- A hash of lists without collisions. -/
def cat (l : List Bytes) : Bytes := l.flatMap fun b => b.flatMap (fun x => [1, x]) ++ [0]

theorem cat_inj : ∀ {l l' : List Bytes}, cat l = cat l' → l = l' := by
  have one : ∀ (b b' r r' : Bytes), b.flatMap (fun x => [(1 : UInt8), x]) ++ (0 : UInt8) :: r = b'.flatMap (fun x => [(1 : UInt8), x]) ++ 0 :: r' → b = b' ∧ r = r' := by
    intro b
    induction b with
    | nil =>
      intro b' r r' h
      cases b' with
      | nil => simpa using h
      | cons y b' => simp at h
    | cons x b ih =>
      intro b' r r' h
      cases b' with
      | nil => simp at h
      | cons y b' =>
        simp only [List.flatMap_cons, List.cons_append, List.nil_append, List.cons.injEq, true_and] at h
        obtain ⟨h1, h2⟩ := ih b' r r' h.2
        exact ⟨by rw [h.1, h1], h2⟩
  intro l
  induction l with
  | nil =>
    intro l' h
    cases l' with
    | nil => rfl
    | cons y l' =>
      have := congrArg List.length h
      simp [cat] at this
  | cons x l ih =>
    intro l' h
    cases l' with
    | nil =>
      have := congrArg List.length h
      simp [cat] at this
    | cons y l' =>
      simp only [cat, List.flatMap_cons, List.append_assoc, List.cons_append, List.nil_append] at h
      obtain ⟨h1, h2⟩ := one _ _ _ _ h
      rw [h1, ih h2]

/-- Raft makes a leaf at 100 and updates it; a backup, its exposure, a wrong guess, and a batch from another replica follow; the leaf
is updated and checked. Rows go to the addresses that are their first byte. -/
def hist : List (Ev DB2.Log (Option DB2.RowPB)) :=
  let at1 : Bytes → Nat := fun id => id.headD 0 |>.toNat
  [.other (.create 100), .other (.update 100 [9]), .call (.run ⟨ida, .backup sec pinA 3⟩) at1 none, .call (.run ⟨ida, .expose sec⟩) at1 none,
   .call (.run ⟨ida, .restore (List.replicate 32 0)⟩) at1 none, .call (.load [some ⟨idb, 5, sec, pinA, 2⟩]) at1 (some 50), .other (.update 100 [8]),
   .check 100 [9], .check 100 [8]]

/-- The database after a call, and the answer. -/
def after {D L R A E : Type} (F : Face D L R (Res A E)) (d : D) (c : Call L R) : D × Res A E :=
  match F.call (fun _ => true) d c with
  | .ok p => p
  | _ => (d, .renew)

theorem after_ok {D L R A E : Type} {F : Face D L R (Res A E)} {d : D} {c : Call L R}
    (h : (match F.call (fun _ => true) d c with | .ok _ => true | _ => false) = true) :
    F.call (fun _ => true) d c = .ok ((after F d c).1, (after F d c).2) := by
  unfold after
  split at h <;> simp_all

/-- The row of the first account, with some number of tries. -/
def row (t : UInt8) : DB2.Row :=
  let r : DB2.Row := ⟨DB2.AVAILABLE, t, 20, padTo 48 sec, pinA, []⟩
  { r with leaf := hashFrom (P0.sip16 (DB2.rowRaw ida r)) }

/-- What is expected of it. -/
theorem hist_ok : ∃ w as, Want.Steps (db2 P0) (Want.start DB2.empty) hist w as ∧ w.others.settled ∧
    w.db.find ida = some (row 2) ∧ w.db.size = 2 := by
  have hs : ∀ x : Bytes, Table.settled (α := Bytes) (upd (upd Table.empty 100 (some .fresh)) 100 (some (.val x))) := by
    intro x l h
    simp only [upd, Table.empty] at h
    split at h <;> cases h
  have hs3 : ∀ x y : Bytes, Table.settled (α := Bytes) (upd (upd (upd Table.empty 100 (some .fresh)) 100 (some (.val x))) 100 (some (.val y))) := by
    intro x y l h
    simp only [upd, Table.empty] at h
    split at h <;> cases h
  refine ⟨_, _, .cons _ _ _ _ _ _ _ (.other _ _ _ rfl ?_) (.cons _ _ _ _ _ _ _ (.other _ _ _ rfl ?_)
    (.cons _ _ _ _ _ _ _ (step_call _ _ _ _ _ _ _ (hs _) (after_ok ?_) ?_ ?_)
    (.cons _ _ _ _ _ _ _ (step_call _ _ _ _ _ _ _ (hs _) (after_ok ?_) ?_ ?_)
    (.cons _ _ _ _ _ _ _ (step_call _ _ _ _ _ _ _ (hs _) (after_ok ?_) ?_ ?_)
    (.cons _ _ _ _ _ _ _ (step_call _ _ _ _ _ _ _ (hs _) (after_ok ?_) ?_ ?_)
    (.cons _ _ _ _ _ _ _ (.other _ _ _ rfl ?_) (.cons _ _ _ _ _ _ _ (.check _ _ [8] _ (hs3 _ _) rfl)
    (.cons _ _ _ _ _ _ _ (.check _ _ [8] _ (hs3 _ _) rfl) (.nil _))))))))), hs3 _ _, ?_, ?_⟩
  · exact fun x _ id h => absurd rfl h
  · exact fun x _ id h => absurd rfl h
  · decide +kernel
  · decide +kernel
  · decide +kernel
  · decide +kernel
  · decide +kernel
  · decide +kernel
  · decide +kernel
  · decide +kernel
  · decide +kernel
  · decide +kernel
  · decide +kernel
  · decide +kernel
  · intro x hx id h
    cases hx
    obtain ⟨p, hp, rfl⟩ := hmem _ id h
    revert p
    decide +kernel
  · decide +kernel
  · decide +kernel

/-- The conditions of C64, with a row rolled back to three tries and any hashes in the tree: the right guess is refused. -/
example : ∃ w as s, Want.Steps (db2 P0) (Want.start DB2.empty) hist w as ∧ play (db2 P0) cat [] DB2.empty hist = .ok (s, as) ∧
    ∀ mem, mem .root = s.tree.mem .root → Written (db2 P0) cat w s (w.db.insert ida (row 3)) mem ida ∧
      ∃ a, consult (db2 P0) cat (s.write (w.db.insert ida (row 3)) mem) (.run ⟨ida, .restore pinA⟩) =
        .ok (seen (db2 P0) (s.write (w.db.insert ida (row 3)) mem), .run a) ∧ Refused2 a := by
  obtain ⟨w, as, h, hset, hrow, _⟩ := hist_ok
  obtain ⟨s, h1, h2⟩ := C64_db2_partial P0 cat [] hist w as h
  refine ⟨w, as, s, h, h1, fun mem hm => ?_⟩
  have hw : Written (db2 P0) cat w s (w.db.insert ida (row 3)) mem ida := by
    refine ⟨hset, fun k hk => ?_, hm, fun n _ e => cat_inj e⟩
    have e1 : ((db2 P0).leaves w.db).find k = (w.db.find k).map fun r => r.leaf := OMap.find_mapV _ _ _
    have e2 : ((db2 P0).leaves (w.db.insert ida (row 3))).find k = ((w.db.insert ida (row 3)).find k).map fun r => r.leaf := OMap.find_mapV _ _ _
    rw [e1] at hk
    rw [e2, OMap.find_insert]
    by_cases e : ida = k
    · rw [← e, hrow] at hk; cases hk
    · rw [if_neg e, hk]
  refine ⟨hw, ?_⟩
  rcases h2 _ mem ⟨ida, .restore pinA⟩ (row 3) (row 2) hw hrow (by rw [OMap.find_insert, if_pos rfl]) (by decide +kernel) (by decide +kernel)
    (fun e => absurd e (by decide +kernel)) (by decide +kernel) trivial with h3 | ⟨h3, _⟩
  · exact h3
  · exact absurd h3 (by decide +kernel)

theorem settled_empty : Table.settled (α := Bytes) Table.empty := fun _ h => by cases h

/-- SVR3: a Create and an Evaluate that uses up one of two tries. -/
def hist3 : List (Ev DB3.Log (Option DB3.RowPB)) :=
  [.call (.run ⟨DB3.ida, .create 2 DB3.elt, DB3.key⟩) (fun _ => 7) none, .call (.run ⟨DB3.ida, .evaluate DB3.elt, []⟩) (fun _ => 8) none]

def row3 (t : UInt8) : DB3.Row :=
  let r : DB3.Row := ⟨DB3.key, t, []⟩
  { r with leaf := hashFrom (DB3.P0.sip16 (DB3.rowRaw DB3.ida r)) }

example : ∃ w as s, Want.Steps (db3 DB3.P0) (Want.start DB3.empty) hist3 w as ∧ play (db3 DB3.P0) cat [] DB3.empty hist3 = .ok (s, as) ∧
    ∀ mem, mem .root = s.tree.mem .root → Written (db3 DB3.P0) cat w s (w.db.insert DB3.ida (row3 2)) mem DB3.ida ∧
      consult (db3 DB3.P0) cat (s.write (w.db.insert DB3.ida (row3 2)) mem) (.run ⟨DB3.ida, .evaluate DB3.elt, []⟩) =
        .ok (seen (db3 DB3.P0) (s.write (w.db.insert DB3.ida (row3 2)) mem), .run (.evaluate .error [] 0)) := by
  have h : ∃ w as, Want.Steps (db3 DB3.P0) (Want.start DB3.empty) hist3 w as ∧ w.others = Table.empty ∧ w.db.find DB3.ida = some (row3 1) := by
    refine ⟨_, _, .cons _ _ _ _ _ _ _ (step_call _ _ _ _ _ _ _ settled_empty (after_ok ?_) ?_ ?_)
      (.cons _ _ _ _ _ _ _ (step_call _ _ _ _ _ _ _ settled_empty (after_ok ?_) ?_ ?_) (.nil _)), rfl, ?_⟩ <;> decide +kernel
  obtain ⟨w, as, h, ho, hrow⟩ := h
  obtain ⟨s, h1, h2⟩ := C64_db3 DB3.P0 cat [] hist3 w as h
  refine ⟨w, as, s, h, h1, fun mem hm => ?_⟩
  have hw : Written (db3 DB3.P0) cat w s (w.db.insert DB3.ida (row3 2)) mem DB3.ida := by
    refine ⟨ho ▸ settled_empty, fun k hk => ?_, hm, fun n _ e => cat_inj e⟩
    have e1 : ((db3 DB3.P0).leaves w.db).find k = (w.db.find k).map fun r => r.leaf := OMap.find_mapV _ _ _
    have e2 : ((db3 DB3.P0).leaves (w.db.insert DB3.ida (row3 2))).find k = ((w.db.insert DB3.ida (row3 2)).find k).map fun r => r.leaf :=
      OMap.find_mapV _ _ _
    rw [e1] at hk
    rw [e2, OMap.find_insert]
    by_cases e : DB3.ida = k
    · rw [← e, hrow] at hk; cases hk
    · rw [if_neg e, hk]
  refine ⟨hw, ?_⟩
  rcases h2 _ mem DB3.ida DB3.elt [] (row3 2) (row3 1) hw hrow (by rw [OMap.find_insert, if_pos rfl])
    (fun e => absurd e (by decide +kernel)) (by decide +kernel) with h3 | ⟨h3, _⟩
  · exact h3
  · exact absurd h3 (by decide +kernel)

/-- SVR5: two uploads. -/
def hist5 : List (Ev DB5.Log (Option DB5.RowPB)) :=
  [.call (.run ⟨DB5.ida, .upload DB5.d1⟩) (fun _ => 7) none, .call (.run ⟨DB5.ida, .upload DB5.d2⟩) (fun _ => 8) none]

def row5 (x : Bytes) : DB5.Row :=
  let r : DB5.Row := ⟨x, []⟩
  { r with leaf := hashFrom (DB5.P0.sip16 (DB5.rowRaw DB5.ida r)) }

example : ∃ w as s, Want.Steps (db5 DB5.P0) (Want.start DB5.empty) hist5 w as ∧ play (db5 DB5.P0) cat [] DB5.empty hist5 = .ok (s, as) ∧
    ∀ mem, mem .root = s.tree.mem .root → Written (db5 DB5.P0) cat w s (w.db.insert DB5.ida (row5 DB5.d1)) mem DB5.ida ∧
      consult (db5 DB5.P0) cat (s.write (w.db.insert DB5.ida (row5 DB5.d1)) mem) (.run ⟨DB5.ida, .download DB5.pw⟩) =
        .ok (seen (db5 DB5.P0) (s.write (w.db.insert DB5.ida (row5 DB5.d1)) mem), .run (.download .merkleFailure [])) := by
  have h : ∃ w as, Want.Steps (db5 DB5.P0) (Want.start DB5.empty) hist5 w as ∧ w.others = Table.empty ∧ w.db.find DB5.ida = some (row5 DB5.d2) := by
    refine ⟨_, _, .cons _ _ _ _ _ _ _ (step_call _ _ _ _ _ _ _ settled_empty (after_ok ?_) ?_ ?_)
      (.cons _ _ _ _ _ _ _ (step_call _ _ _ _ _ _ _ settled_empty (after_ok ?_) ?_ ?_) (.nil _)), rfl, ?_⟩ <;> decide +kernel
  obtain ⟨w, as, h, ho, hrow⟩ := h
  obtain ⟨s, h1, h2⟩ := C64_db5 DB5.P0 cat [] hist5 w as h
  refine ⟨w, as, s, h, h1, fun mem hm => ?_⟩
  have hw : Written (db5 DB5.P0) cat w s (w.db.insert DB5.ida (row5 DB5.d1)) mem DB5.ida := by
    refine ⟨ho ▸ settled_empty, fun k hk => ?_, hm, fun n _ e => cat_inj e⟩
    have e1 : ((db5 DB5.P0).leaves w.db).find k = (w.db.find k).map fun r => r.leaf := OMap.find_mapV _ _ _
    have e2 : ((db5 DB5.P0).leaves (w.db.insert DB5.ida (row5 DB5.d1))).find k = ((w.db.insert DB5.ida (row5 DB5.d1)).find k).map fun r => r.leaf :=
      OMap.find_mapV _ _ _
    rw [e1] at hk
    rw [e2, OMap.find_insert]
    by_cases e : DB5.ida = k
    · rw [← e, hrow] at hk; cases hk
    · rw [if_neg e, hk]
  refine ⟨hw, ?_⟩
  rcases h2 _ mem DB5.ida DB5.pw (row5 DB5.d1) (row5 DB5.d2) hw hrow (by rw [OMap.find_insert, if_pos rfl])
    (fun e => absurd e (by decide +kernel)) (by decide +kernel) with h3 | ⟨h3, _⟩
  · exact h3
  · exact absurd h3 (by decide +kernel)

/-- SVR4: a Create and the start of a rotation. -/
def hist4 : List (Ev DB4.Log (Option DB4.RowPB)) :=
  [.call (.run ⟨DB4.ida, DB4.mk 3⟩) (fun _ => 7) none, .call (.run ⟨DB4.ida, .rotateStart 8 DB4.sc2 DB4.sc1⟩) (fun _ => 8) none]

def row4 (t : UInt8) : DB4.Row :=
  let r : DB4.Row := ⟨DB4.elt, DB4.sc1, DB4.sc2, DB4.sc3, 7, t, []⟩
  { r with leaf := hashFrom (DB4.P0.sip16 (DB4.rowRaw DB4.ida r (some ⟨8, DB4.sc2, DB4.sc1⟩))) }

example : ∃ w as s, Want.Steps (db4 DB4.P0) (Want.start DB4.empty) hist4 w as ∧ play (db4 DB4.P0) cat [] DB4.empty hist4 = .ok (s, as) ∧
    ∀ mem, mem .root = s.tree.mem .root → Written (db4 DB4.P0) cat w s ⟨w.db.rows.insert DB4.ida (row4 9), w.db.rot⟩ mem DB4.ida ∧
      ∃ a, consult (db4 DB4.P0) cat (s.write ⟨w.db.rows.insert DB4.ida (row4 9), w.db.rot⟩ mem) (.run ⟨DB4.ida, .restore1 DB4.elt⟩) =
        .ok (seen (db4 DB4.P0) (s.write ⟨w.db.rows.insert DB4.ida (row4 9), w.db.rot⟩ mem), .run ⟨a, none⟩) ∧ Refused4 a := by
  have h : ∃ w as, Want.Steps (db4 DB4.P0) (Want.start DB4.empty) hist4 w as ∧ w.others = Table.empty ∧ w.db.rows.find DB4.ida = some (row4 3) ∧
      w.db.rot.find DB4.ida = some ⟨8, DB4.sc2, DB4.sc1⟩ := by
    refine ⟨_, _, .cons _ _ _ _ _ _ _ (step_call _ _ _ _ _ _ _ settled_empty (after_ok ?_) ?_ ?_)
      (.cons _ _ _ _ _ _ _ (step_call _ _ _ _ _ _ _ settled_empty (after_ok ?_) ?_ ?_) (.nil _)), rfl, ?_, ?_⟩ <;> decide +kernel
  obtain ⟨w, as, h, ho, hrow, hrot⟩ := h
  obtain ⟨s, h1, h2⟩ := C64_db4_partial DB4.P0 DB4.P0_add cat [] hist4 w as h (by
    intro rows fresh temp hm
    simp [hist4] at hm)
  refine ⟨w, as, s, h, h1, fun mem hm => ?_⟩
  have hw : Written (db4 DB4.P0) cat w s ⟨w.db.rows.insert DB4.ida (row4 9), w.db.rot⟩ mem DB4.ida := by
    refine ⟨ho ▸ settled_empty, fun k hk => ?_, hm, fun n _ e => cat_inj e⟩
    have e1 : ((db4 DB4.P0).leaves w.db).find k = (w.db.rows.find k).map fun r => r.leaf := OMap.find_mapV _ _ _
    have e2 : ((db4 DB4.P0).leaves ⟨w.db.rows.insert DB4.ida (row4 9), w.db.rot⟩).find k =
      ((w.db.rows.insert DB4.ida (row4 9)).find k).map fun r => r.leaf := OMap.find_mapV _ _ _
    rw [e1] at hk
    rw [e2, OMap.find_insert]
    by_cases e : DB4.ida = k
    · rw [← e, hrow] at hk; cases hk
    · rw [if_neg e, hk]
  refine ⟨hw, ?_⟩
  rcases h2 _ mem ⟨DB4.ida, .restore1 DB4.elt⟩ (row4 9) (row4 3) hw hrow (by rw [OMap.find_insert, if_pos rfl])
    ⟨by decide, by decide, by decide, by decide, by decide⟩ (fun x hx => by rw [hrot] at hx; cases hx; exact ⟨by decide, by decide⟩)
    (by rw [hrot]; decide) (fun e => by rw [hrot] at e; exact absurd e (by decide +kernel)) (by decide +kernel) trivial with h3 | ⟨h3, _⟩
  · exact h3
  · exact absurd (show (row4 9).tries = (row4 3).tries from congrArg (fun x => x.2.2.2.2.2.1) h3) (by decide +kernel)

end Examples

end Svr.Props.OnTree
