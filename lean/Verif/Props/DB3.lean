import Verif.DB3Rows
import Verif.Spec.Oprf3Facts

/-!
# SVR3 properties (C04–C08, C15–C18 for SVR3)

Histories are applied to an empty database by `runAll`; `answersOf`/`entriesOf` select one account.
-/

namespace Svr.Props.DB3
open Svr.DB3 Svr.Spec3

/-- Apply a history of entries. -/
def runAll (P : Prims3) (path : Bytes → Bool) : DB → List Log → Out (DB × List Resp) := runList (run P path)

/-- Every entry passes `ValidateClientLog`. -/
def Valid (logs : List Log) : Prop := ∀ l ∈ logs, validate l = none
instance (logs : List Log) : Decidable (Valid logs) := by unfold Valid; infer_instance

abbrev entries (a : Bytes) (ls : List Log) : List Log := entriesOf (·.id) a ls
abbrev answers (a : Bytes) (ls : List Log) (rs : List Resp) : List Resp := answersOf (·.id) a ls rs

/-- The run, through the specification. -/
theorem runAll_spec (P : Prims3) (logs : List Log) (hv : Valid logs) (db : DB) (hi : Inv P db) :
    ∃ db' rs, runAll P intact db logs = .ok (db', rs) ∧ Inv P db' ∧ rs.length = logs.length ∧
      ∀ a, look db' a = (specRun (astep P.mul) (look db a) (entries a logs)).1 ∧
        answers a logs rs = (specRun (astep P.mul) (look db a) (entries a logs)).2 :=
  (sim P).runList_spec logs db hi hv

/-- A history in which account `a` makes a Create that succeeds, and no later one succeeds. -/
structure OneCreate (P : Prims3) (a k b : Bytes) (n : UInt32) (before after : List Log) : Prop where
  valid : Valid (before ++ ⟨a, .create n b, k⟩ :: after)
  created : (P.mul k b).isSome = true
  noNew : NoNewKey P.mul (entries a after)

theorem answers_after (P : Prims3) {a k b : Bytes} {n : UInt32} {before after : List Log}
    (h : OneCreate P a k b n before after) :
    ∃ db rs r rs', runAll P intact empty (before ++ ⟨a, .create n b, k⟩ :: after) = .ok (db, rs ++ r :: rs') ∧
      rs.length = before.length ∧ (∃ e, r = .create .ok e) ∧
      answers a after rs' = (specRun (astep P.mul) (some ⟨k, n.toNat⟩) (entries a after)).2 := by
  obtain ⟨db1, rs1, e1, i1, l1, s1⟩ := runAll_spec P before (fun l hl => h.valid l (by simp [hl])) empty (inv_empty P)
  obtain ⟨db2, rs2, e2, i2, l2, s2⟩ := runAll_spec P (⟨a, .create n b, k⟩ :: after)
    (fun l hl => h.valid l (by simp [List.mem_cons.mp hl])) db1 i1
  obtain ⟨e, he⟩ := Option.isSome_iff_exists.mp h.created
  match rs2, l2 with
  | r :: rs', l2 =>
    have hs := (s2 a).2
    have hent : entries a (⟨a, .create n b, k⟩ :: after) = ⟨a, .create n b, k⟩ :: entries a after := by
      simp [entries, entriesOf]
    rw [hent] at hs
    simp only [answers, answersOf, if_true, specRun, astep, he, List.cons.injEq] at hs
    refine ⟨db2, rs1, r, rs', ?_, l1, ⟨e, hs.1⟩, hs.2⟩
    unfold runAll at e1 e2 ⊢
    rw [runList_append, e1]
    simp only [Out.bind_ok, e2, Out.pure_eq]

/-- **C07**: after a Create with `max_tries = n` answered OK and until the next Create answered OK, the
counters reported with OK evaluations are `n-1, n-2, …`, at most `n` of them; after 0 is reported the
account is missing for Evaluate and Query. Other accounts may do anything. -/
theorem C07_evaluations_count_down (P : Prims3) {a k b : Bytes} {n : UInt32} {before after : List Log}
    (h : OneCreate P a k b n before after) :
    ∃ db rs r rs', runAll P intact empty (before ++ ⟨a, .create n b, k⟩ :: after) = .ok (db, rs ++ r :: rs') ∧
      rs.length = before.length ∧ (∃ e, r = .create .ok e) ∧
      (∃ m, m ≤ n.toNat ∧ okTries (answers a after rs') = (List.range m).map (fun i => n.toNat - 1 - i)) ∧
      ∀ pre e post, answers a after rs' = pre ++ .evaluate .ok e 0 :: post → ∀ x ∈ post, live x = false := by
  obtain ⟨db, rs, r, rs', e1, l1, hr, hs⟩ := answers_after P h
  have hn : 1 ≤ n.toNat := by
    have := h.valid ⟨a, .create n b, k⟩ (by simp)
    rw [validate_iff] at this; exact this.2.1
  refine ⟨db, rs, r, rs', e1, l1, hr, ?_, ?_⟩
  · rw [hs]; exact countdown P.mul _ ⟨k, n.toNat⟩ h.noNew hn
  · intro pre e post he
    rw [hs] at he
    exact zero_then_dead P.mul _ ⟨k, n.toNat⟩ h.noNew hn pre post e he

/-- **C08**: an Evaluate answered OK returns the element multiplied by the key recorded in the account's
latest Create that succeeded. -/
theorem C08_evaluate_uses_created_key (P : Prims3) (logs : List Log) (a b pk ev : Bytes) (t : Nat)
    (hv : Valid (logs ++ [⟨a, .evaluate b, pk⟩])) (db : DB) (rs : List Resp)
    (h : runAll P intact empty (logs ++ [⟨a, .evaluate b, pk⟩]) = .ok (db, rs ++ [.evaluate .ok ev t])) :
    ∃ pre post l n b0, entries a logs = pre ++ l :: post ∧ l.req = .create n b0 ∧
      (P.mul l.privkey b0).isSome = true ∧ NoNewKey P.mul post ∧ P.mul l.privkey b = some ev := by
  obtain ⟨db1, rs1, e1, i1, l1, s1⟩ := runAll_spec P logs (fun l hl => hv l (by simp [hl])) empty (inv_empty P)
  obtain ⟨db2, h2, _, _, _⟩ := run_sim P db1 ⟨a, .evaluate b, pk⟩ i1 (hv _ (by simp))
  unfold runAll at h e1
  rw [runList_append, e1] at h
  simp only [Out.bind_ok, runList, h2, Out.pure_eq, Out.ok.injEq, Prod.mk.injEq] at h
  have hlast := (List.append_inj' h.2 rfl).2
  simp only [List.cons.injEq, and_true] at hlast
  have hl := (s1 a).1
  have : look empty a = none := by simp [look, empty]
  rw [this] at hl
  cases ho : look db1 a with
  | none => simp [ho, astep] at hlast
  | some v =>
    rw [ho] at hl hlast
    obtain ⟨pre, post, l, n, b0, e, h1, h2, h3, h4⟩ := key_from_create P.mul _ v hl.symm
    refine ⟨pre, post, l, n, b0, e, h1, h3, h4, ?_⟩
    rw [h2]
    simp only [astep] at hlast
    cases hm : P.mul v.key b with
    | none => simp [hm] at hlast
    | some e' =>
      simp only [hm] at hlast
      split at hlast <;> · injection hlast with _ h5 _; rw [h5]

/-- **C08**: an Evaluate that is not answered OK leaves the database as it was. Any database. -/
theorem C08_failed_evaluate_no_change (P : Prims3) (path : Bytes → Bool) (db db' : DB) (a b pk : Bytes) (r : Resp)
    (h : run P path db ⟨a, .evaluate b, pk⟩ = .ok (db', r)) (hr : ∀ e t, r ≠ .evaluate .ok e t) : db' = db := by
  unfold run at h
  cases hv : (validate ⟨a, .evaluate b, pk⟩ == none) with
  | false => rw [hv] at h; simp at h
  | true =>
    rw [hv] at h
    simp only [Out.check_true, Out.bind_ok] at h
    cases hi : strToArr BACKUP_ID_SIZE a with
    | none => rw [hi] at h; simp at h
    | some id =>
      rw [hi] at h
      simp only [Out.pure_eq, Out.ok.injEq] at h
      unfold evaluate at h
      cases hb : strToArr ELEMENT_SIZE b with
      | none => rw [hb] at h; cases h; rfl
      | some elt =>
        rw [hb] at h
        simp only at h
        cases hf : db.find id with
        | none => rw [hf] at h; cases h; rfl
        | some row =>
          rw [hf] at h
          simp only at h
          by_cases hve : (!verify P path id row) = true
          · rw [if_pos hve] at h; cases h; rfl
          · rw [if_neg hve] at h
            cases hm : P.mul row.priv elt with
            | none => rw [hm] at h; cases h; rfl
            | some ev =>
              rw [hm] at h
              simp only at h
              split at h <;> · injection h with _ h2; exact absurd h2.symm (hr _ _)

/-- **C04 (SVR3)**: an entry for account `a` does not change what any later sequence of requests by
another account `b` observes. Any database, tampered or not. -/
theorem C04_db3_isolation (P : Prims3) (path : Bytes → Bool) (db db' : DB) (la : Log) (ra : Resp)
    (h : run P path db la = .ok (db', ra)) (b : Bytes) (hb : b ≠ la.id) (ls : List Log)
    (hls : ∀ l ∈ ls, l.id = b) :
    outcome (runAll P path db' ls) = outcome (runAll P path db ls) :=
  isolation_of_local (run P path) (·.id) (fun s k => s.find k) (fun s k o => s.set k o)
    (fun _ _ _ => OMap.find_set_self _ _ _) (fun _ _ _ _ hk => OMap.find_set_ne _ _ hk)
    (run_local P path) db db' la ra h b hb ls hls

/-- **C05 (SVR3)**: no history of validated entries and arbitrary row batches, whatever the integrity
walk reports, reaches a `CHECK` failure or undefined behaviour, and every row keeps 1..255 tries. -/
theorem C05_db3_never_aborts (P : Prims3) (es : List Ev) (hok : ∀ e ∈ es, e.ok) :
    ∃ db, runEvs P empty es = .ok db ∧
      ∀ id r, db.find id = some r → id.length = 16 ∧ r.priv.length = 32 ∧ 1 ≤ r.tries.toNat ∧ r.tries.toNat ≤ 255 := by
  obtain ⟨db, h1, h2⟩ := runEvs_inv P es empty (inv_empty P) hok
  refine ⟨db, h1, fun id r hr => ?_⟩
  have := h2 id r hr
  have h0 : r.tries.toNat ≠ 0 := fun x => this.tries_pos (u8_eq_zero_iff.mpr x)
  have := r.tries.toNat_lt
  exact ⟨(h2 id r hr).id_len, (h2 id r hr).priv_len, by omega, by omega⟩

/-- **C06 (SVR3)**: the memory of a row was replaced by `r` with a different key or counter, the hash in
the integrity tree is still the one of the genuine row `r0`. Unless the row hash collides on the two,
`Evaluate` answers ERROR (or reports the malformed request) and changes nothing. -/
theorem C06_db3_rollback_detected (P : Prims3) (path : Bytes → Bool) (db : DB) (id b : Bytes) (r r0 : Row)
    (hr : db.find id = some r) (h0 : RowOK P id r0) (hleaf : r.leaf = r0.leaf)
    (hdiff : (r.priv, r.tries) ≠ (r0.priv, r0.tries))
    (hcoll : hashFrom (P.sip16 (rowRaw id r)) = hashFrom (P.sip16 (rowRaw id r0)) → rowRaw id r = rowRaw id r0)
    (hb : b.length = 32) :
    evaluate P path db id b = (db, .evaluate .error [] 0) := by
  have hne : ctEq (hashFrom (P.sip16 (rowRaw id r))) r.leaf = false := by
    rw [Bool.eq_false_iff]
    intro h
    rw [ctEq_iff, hleaf, h0.leaf_eq] at h
    obtain ⟨_, e1, e2⟩ := rowRaw_inj h0.id_len h0.id_len (hcoll h)
    exact hdiff (by rw [e1, e2])
  unfold evaluate
  rw [strToArr_self hb]
  simp only [hr]
  rw [if_pos]
  simp [verify, hne]

/-- **C15 (SVR3)**: streaming a reachable database in chunks of any positive sizes (large enough in
total) into an empty one reproduces it exactly. -/
theorem C15_db3_stream_reproduces (P : Prims3) (db : DB) (h : Reach P db) (sizes : List Nat)
    (hpos : ∀ n ∈ sizes, 0 < n) (hsum : db.size ≤ sizes.sum) :
    transfer (fun c n => .ok (rowsAsProtos db c n)) (loadRows P) empty [] sizes = .ok (db, none) := by
  have hi := reach_inv h
  have := transfer_ok (ρ := id) (pb := rowToPB) db (fun c n => .ok (rowsAsProtos db c n)) (loadRows P)
    (fun p hp e => by have := (inv_mem hi hp).id_len; rw [e] at this; simp at this)
    (fun l1 l2 n hs => congrArg Out.ok (rowsAsProtos_ok hi l1 l2 n hs))
    (fun m1 m2 c hm hc hsub => loadRows_emitted hm (fun p hp => inv_mem hi (hsub p (by rw [hm]; simp [hp]))))
    sizes hpos empty db.list (by simp [empty]) hsum
  simpa [lastKeyOf, empty] using this

/-- **C16 (SVR3)**: whatever the batch, loading only appends rows with keys above all present ones,
leaves present rows alone, and reports success only if every row of the batch was added with the content
received (ids and keys shorter than their fixed sizes are padded with zeros). -/
theorem C16_db3_load_only_appends (P : Prims3) (db db' : DB) (rows : List (Option RowPB)) (res : Except Err Bytes)
    (h : loadRows P db rows = .ok (db', res)) :
    ∃ added, db'.list = db.list ++ added ∧
      (∀ p ∈ db.list, ∀ q ∈ added, p.1 < q.1) ∧
      (∀ k r, db.find k = some r → db'.find k = some r) ∧
      ∀ k, res = .ok k → List.Forall₂ (fun o p => ∃ x, o = some x ∧ p.1 = padTo 16 x.id ∧
        p.2.priv = padTo 32 x.priv ∧ p.2.tries.toNat = x.tries.toNat) rows added := by
  unfold loadRows at h
  cases hl : loadLoopG (loadRow P) db rows with
  | abort => rw [hl] at h; simp at h
  | ub => rw [hl] at h; simp at h
  | ok q =>
    obtain ⟨db1, e⟩ := q
    rw [hl] at h
    simp only [Out.bind_ok] at h
    obtain ⟨c, hc, hcl, hf, hiff⟩ := loadLoopG_appends (loadRow P)
      (fun x k v => PBOK x ∧ k = keyOfPB x ∧ v = rowOfPB P x) (loadRow_step P) rows db db1 e hl
    have hdb : db1 = db' := by
      cases e with
      | some e => simp at h; exact h.1
      | none =>
        simp only at h
        split at h <;> simp at h <;> exact h.1
    subst hdb
    refine ⟨c, hc, ?_, ?_, ?_⟩
    · intro p hp q hq
      have := db1.sorted
      rw [hc] at this
      exact (List.pairwise_append.mp this).2.2 p hp q hq
    · intro k r hk
      rw [← OMap.mem_list] at hk ⊢
      rw [hc]; exact List.mem_append_left _ hk
    · intro k hk
      subst hk
      have he : e = none := by
        cases e with
        | some e => simp at h
        | none => rfl
      have hlen' := hiff.mp he
      rw [hlen', List.take_length] at hf
      refine hf.imp ?_
      rintro o ⟨k, v⟩ ⟨x, hx, hok, hk, hv⟩
      simp only at hv hk
      subst hv
      exact ⟨x, hx, hk, rfl, DB2.u32_toUInt8_toNat hok.tries_le⟩

/-- **C17 (SVR3)**: reachable databases with the same `Hash()` are equal, if SHA-256 does not collide on
the two inputs and the row hash does not collide between their rows. -/
theorem C17_db3_hash_identifies (P : Prims3) (db1 db2 : DB) (h1 : Reach P db1) (h2 : Reach P db2)
    (hlen : ∀ x, (P.sip16 x).length = 16) (hh : hash P db1 = hash P db2)
    (hsha : P.sha256 (hashInput P db1) = P.sha256 (hashInput P db2) → hashInput P db1 = hashInput P db2)
    (hsip : ∀ p ∈ db1.list, ∀ q ∈ db2.list,
      P.sip16 (rowRaw p.1 p.2) = P.sip16 (rowRaw q.1 q.2) → rowRaw p.1 p.2 = rowRaw q.1 q.2) :
    db1 = db2 := by
  have i1 := reach_inv h1
  have i2 := reach_inv h2
  have hb := (List.append_inj (hsha hh) (by simp)).2
  apply OMap.ext
  exact rows_eq_of_map db1.list db2.list (fun p hp => inv_mem i1 hp) (fun p hp => inv_mem i2 hp) hsip
    (flatMap_blocks_inj (by omega) (fun _ => hlen _) (fun _ => hlen _) _ _ hb)

/-- **C18 (SVR3)**: in a reachable database and with an intact tree, the integrity check of every row
succeeds, so `Evaluate` answers ERROR only if the group operation fails. -/
theorem C18_db3_no_false_alarm (P : Prims3) (db : DB) (h : Reach P db) :
    (∀ id r, db.find id = some r → verify P (fun _ => true) id r = true) ∧
    ∀ id b db' e t, b.length = 32 → evaluate P (fun _ => true) db id b = (db', .evaluate .error e t) →
      ∃ r, db.find id = some r ∧ P.mul r.priv b = none := by
  have hi := reach_inv h
  refine ⟨fun id r hr => verify_ok (hi id r hr) _, ?_⟩
  intro id b db' e t hb he
  unfold evaluate at he
  rw [strToArr_self hb] at he
  simp only at he
  cases hf : db.find id with
  | none => rw [hf] at he; simp at he
  | some r =>
    rw [hf] at he
    simp only [verify_ok (hi id r hf), Bool.not_true, Bool.false_eq_true, if_false] at he
    refine ⟨r, rfl, ?_⟩
    cases hm : P.mul r.priv b with
    | none => rfl
    | some ev =>
      rw [hm] at he
      simp only at he
      split at he <;> simp at he

/-! ### Non-vacuity -/
section Examples
def ida : Bytes := List.replicate 16 1
def idb : Bytes := List.replicate 16 2
def elt : Bytes := List.replicate 32 5
def key : Bytes := List.replicate 32 9
def bad : Bytes := List.replicate 32 0
/-- Toy primitives: "multiplication" fails on the zero element. -/
def P0 : Prims3 := ⟨⟨fun b => padTo 16 ((b.drop 16).take 8), fun b => b⟩,
  fun k e => if e = bad then none else some (List.zipWith (· ^^^ ·) k e)⟩

example : OneCreate P0 ida key elt 2 [⟨idb, .query, []⟩]
    [⟨ida, .evaluate elt, []⟩, ⟨ida, .evaluate bad, []⟩, ⟨idb, .create 3 elt, key⟩, ⟨ida, .create 3 bad, key⟩,
     ⟨ida, .evaluate elt, []⟩, ⟨ida, .evaluate elt, []⟩, ⟨ida, .query, []⟩] := by
  refine ⟨by decide, by decide, ?_⟩
  intro l hl n b hb
  simp [entries, entriesOf, ida, idb] at hl
  rcases hl with rfl | rfl | rfl | rfl | rfl <;> simp at hb
  obtain ⟨_, rfl⟩ := hb
  simp [P0, bad]
example : (match runAll P0 intact empty [⟨ida, .create 2 elt, key⟩, ⟨ida, .evaluate elt, []⟩,
    ⟨ida, .evaluate bad, []⟩, ⟨ida, .evaluate elt, []⟩, ⟨ida, .evaluate elt, []⟩] with
  | .ok (_, rs) => okTries rs | _ => []) = [1, 0] := by decide
/-- Genuine row with one try left, and the rolled-back one with two. -/
example : ∃ r r0, RowOK P0 ida r0 ∧ r.leaf = r0.leaf ∧ (r.priv, r.tries) ≠ (r0.priv, r0.tries) ∧
    hashFrom (P0.sip16 (rowRaw ida r)) ≠ hashFrom (P0.sip16 (rowRaw ida r0)) := by
  let r0 : Row := updateLeaf P0 ida ⟨key, 1, []⟩
  refine ⟨{ r0 with tries := 2 }, r0, ⟨?_, ?_, ?_, ?_⟩, ?_, ?_, ?_⟩ <;> decide
def evs : List Ev := [.entry (fun _ => true) ⟨ida, .create 2 elt, key⟩, .load [some ⟨idb, key, 7⟩], .load []]
example : ∀ e ∈ evs, e.ok := by
  intro e he
  simp only [evs, List.mem_cons, List.not_mem_nil, or_false] at he
  rcases he with rfl | rfl | rfl
  · show validate _ = none; decide
  · trivial
  · trivial
example : (match runEvs P0 empty evs with | .ok db => db.size | _ => 0) = 2 := by decide
end Examples

end Svr.Props.DB3
