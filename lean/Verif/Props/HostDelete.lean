import Verif.Core.LogTx
import Verif.DB2
import Verif.DB3Rows
import Verif.DB4
import Verif.DB5

/-!
# C105: what a host learns when it has a request carried out for a user

`Core::HandleHostDatabaseRequest` (enclave/core/core.cc:772-798) makes a log entry of the request, as `LogFromRequest` does for a client, and tells the
host the error that the handler of the entry is called with; the effect is not looked at. Hosts use this to delete users.
-/

namespace Svr.Props.HostDelete
open Svr Svr.Core
open Svr.Raft (Entry Inner)
variable {D L E : Type}

/-- The databases behind the interface of `core.cc`. `path` says which walks from a row's leaf to the root of the integrity tree succeed. -/
def svr2 (P : Prims) (path : Bytes → Bool) (parse : Bytes → Option DB2.Log) : Proto DB2.DB DB2.Log DB2.Resp :=
  ⟨DB2.empty, parse, fun l => DB2.validate l == none, DB2.run P path⟩
@[inherit_doc svr2] def svr3 (P : DB3.Prims3) (path : Bytes → Bool) (parse : Bytes → Option DB3.Log) : Proto DB3.DB DB3.Log DB3.Resp :=
  ⟨DB3.empty, parse, fun l => DB3.validate l == none, DB3.run P path⟩
@[inherit_doc svr2] def svr4 (P : DB4.Prims4) (path : Bytes → Bool) (parse : Bytes → Option DB4.Log) : Proto DB4.DB DB4.Log DB4.Effect :=
  ⟨DB4.empty, parse, fun l => DB4.validate P l == none, DB4.run P path⟩
@[inherit_doc svr2] def svr5 (P : DB5.Prims5) (path : Bytes → Bool) (parse : Bytes → Option DB5.Log) : Proto DB5.DB DB5.Log DB5.Resp :=
  ⟨DB5.empty, parse, fun l => DB5.validate l == none, DB5.run P path⟩

/-- The host is told of success for its request `l` when the replica goes from `a` to `a'` by one committed entry: the handler `t` that waited for the host's entry is
called with success. The host's entry has the hash `t.hash` and the bytes `b`, and no other entry has this hash (C27 is about when that is so). -/
structure Told (pr : Proto D L E) (l : L) (a a' : Side D E) : Prop where
  step : ∃ pm me path i e idx t b, a.take pr pm me path i e = .ok a' ∧ a.mine t.who = [(idx, t)] ∧
    (∃ e' eff, a'.got t.who = a.got t.who ++ [.success e' eff]) ∧ t.hash ≠ [] ∧ pr.parse b = some l ∧ (e.hash = t.hash → e.inner = .data b)

theorem verdict_success {e e' : Entry} {eff eff' : Option E} {t : LogTx} (h : verdict e eff t = .success e' eff') (hn : t.hash ≠ []) : e.hash = t.hash := by
  unfold verdict at h
  split at h
  · cases h
  split at h
  · cases h
  rename_i k
  have hp : t.hash.length > 0 := List.length_pos_iff.mpr hn
  by_cases q : ctEq t.hash e.hash = true
  · exact ((ctEq_iff _ _).mp q).symm
  · exact absurd ⟨hp, q⟩ k

/-- The entry that was applied holds the host's request. -/
theorem Told.entry {pr : Proto D L E} {l : L} {a a' : Side D E} (h : Told pr l a a') :
    ∃ pm me path i e b, a.take pr pm me path i e = .ok a' ∧ e.inner = .data b ∧ pr.parse b = some l := by
  obtain ⟨pm, me, path, i, e, idx, t, b, h1, h2, ⟨e', eff, h3⟩, h4, h5, h6⟩ := h.step
  refine ⟨pm, me, path, i, e, b, h1, h6 ?_, h5⟩
  rcases take_waiting h1 h2 with ⟨_, _, _, k⟩ | ⟨_, _, eff', _, _, k⟩ | ⟨_, _, _, k⟩
  · rw [h3] at k; simp at k
  · rw [h3] at k
    have := List.append_cancel_left k
    exact verdict_success (List.cons.inj this).1.symm h4
  · rw [h3] at k; simp at k

/-- What the entry does to the database. -/
theorem Told.run {pr : Proto D L E} {l : L} {a a' : Side D E} (h : Told pr l a a') :
    (pr.valid l = true → ∃ r, pr.run a.db l = .ok (a'.db, r)) ∧ (pr.valid l = false → a'.db = a.db) := by
  obtain ⟨pm, me, path, i, e, b, h1, h2, h3⟩ := h.entry
  obtain ⟨s1, eff, h4, rfl⟩ := take_eq h1
  rw [h2] at h4
  simp only [Side.inner] at h4
  obtain ⟨⟨db, ef⟩, h5, h6⟩ := Out.bind_eq_ok.mp h4
  cases h6
  unfold applyDb at h5
  rw [h3] at h5
  constructor
  · intro hv
    simp only [hv, if_true] at h5
    obtain ⟨⟨db', r⟩, h7, h8⟩ := Out.bind_eq_ok.mp h5
    cases h8
    exact ⟨r, h7⟩
  · intro hv
    simp only [hv, Bool.false_eq_true, if_false] at h5
    cases h5
    rfl

/-- **C105, deletions.** A host that is told that a user was deleted can rely on it: the database of the replica that says so has
no row of that user then, in all four protocols and whatever the integrity tree says. In SVR4 there is no pending rotation of that user
either, given that only users with a row had one before, as `DB4.inv_rots` says of databases made by requests.
Missing from the full claim: requests other than deletions, for which it is false (`C105_success_without_effect`). -/
theorem C105_deleted_partial {P2 : Prims} {P3 : DB3.Prims3} {P4 : DB4.Prims4} {P5 : DB5.Prims5} {path : Bytes → Bool} {id : Bytes} :
    (∀ parse l a a', DB2.logFromRequest id .delete = .ok l → Told (svr2 P2 path parse) l a a' → a'.db.find id = none) ∧
    (∀ parse key l a a', DB3.logFromRequest id key .remove = .ok l → Told (svr3 P3 path parse) l a a' → a'.db.find id = none) ∧
    (∀ parse l a a', DB4.logFromRequest id .remove = .ok l → Told (svr4 P4 path parse) l a a' → a'.db.rows.find id = none ∧
      ((∀ k x, a.db.rot.find k = some x → a.db.rows.find k ≠ none) → a'.db.rot.find id = none)) ∧
    (∀ parse l a a', DB5.logFromRequest id .purge = .ok l → Told (svr5 P5 path parse) l a a' → a'.db.find id = none) := by
  refine ⟨?_, ?_, ?_, ?_⟩
  · intro parse l a a' hl h
    unfold DB2.logFromRequest at hl
    split at hl
    · cases hl
    rename_i hlen
    cases hl
    obtain ⟨r, hr⟩ := h.run.1 (by simp [svr2, DB2.validate, hlen])
    generalize a'.db = d at hr ⊢
    obtain ⟨_, _, hr⟩ := Out.bind_eq_ok.mp hr
    obtain ⟨_, _, hr⟩ := Out.bind_eq_ok.mp hr
    simp only [DB2.delete] at hr
    split at hr
    · cases hr; assumption
    · cases hr; rw [OMap.find_erase, if_pos rfl]
  · intro parse key l a a' hl h
    unfold DB3.logFromRequest at hl
    split at hl
    · cases hl
    rename_i hlen
    cases hl
    obtain ⟨r, hr⟩ := h.run.1 (by simp [svr3, DB3.validate, hlen])
    generalize a'.db = d at hr ⊢
    obtain ⟨_, _, hr⟩ := Out.bind_eq_ok.mp hr
    simp only [DB3.strToArr_self (Decidable.not_not.mp hlen), DB3.remove] at hr
    cases hr' : a.db.find id with
    | none => rw [hr'] at hr; cases hr; exact hr'
    | some x => rw [hr'] at hr; cases hr; rw [OMap.find_erase, if_pos rfl]
  · intro parse l a a' hl h
    unfold DB4.logFromRequest at hl
    split at hl
    · cases hl
    rename_i hlen
    cases hl
    obtain ⟨r, hr⟩ := h.run.1 (by simp [svr4, DB4.validate, hlen])
    generalize a'.db = d at hr ⊢
    obtain ⟨_, _, hr⟩ := Out.bind_eq_ok.mp hr
    simp only [DB3.strToArr_self (Decidable.not_not.mp hlen), DB4.remove] at hr
    cases hr' : a.db.rows.find id with
    | none =>
      rw [hr'] at hr; cases hr
      refine ⟨hr', fun k => ?_⟩
      cases hx : a.db.rot.find id with
      | none => rfl
      | some x => exact absurd hr' (k id x hx)
    | some x => rw [hr'] at hr; cases hr; exact ⟨by simp, fun _ => by simp⟩
  · intro parse l a a' hl h
    unfold DB5.logFromRequest at hl
    split at hl
    · cases hl
    rename_i hlen
    cases hl
    obtain ⟨r, hr⟩ := h.run.1 (by simp [svr5, DB5.validate, hlen])
    generalize a'.db = d at hr ⊢
    obtain ⟨_, _, hr⟩ := Out.bind_eq_ok.mp hr
    obtain ⟨_, _, hr⟩ := Out.bind_eq_ok.mp hr
    simp only [DB5.purge] at hr
    cases hr' : a.db.find id with
    | none => rw [hr'] at hr; cases hr; exact hr'
    | some x => rw [hr'] at hr; cases hr; rw [OMap.find_erase, if_pos rfl]

/-- Whatever the database is, a host can be told of success for what is done to it. -/
theorem can_be_told {pr : Proto D L E} {l : L} {b : Bytes} (hb : pr.parse b = some l) {d d' : D} {r : Option E} (ha : applyDb pr d b = .ok (d', r)) :
    ∃ a a' : Side D E, a.db = d ∧ Told pr l a a' ∧ a'.db = d' ∧ a'.got 7 = [.success ⟨1, .data b, [9]⟩ r] := by
  let a : Side D E := { Side.promote d OMap.empty 4 with member := true, txs := [(5, ⟨1, [9], 7⟩)] }
  let a' : Side D E := { a with
    db := d', last := 5, leaf := be64 5, txs := [], done := [(7, .success ⟨1, .data b, [9]⟩ r)], effects := [(5, r)] }
  have h1 : a.take pr (fun _ => none) [0] true 5 ⟨1, .data b, [9]⟩ = .ok a' := by
    have hc : ctEq (be64 4) (be64 4) = true := (ctEq_iff _ _).mpr rfl
    have hd : verdict ⟨1, .data b, [9]⟩ r ⟨1, [9], 7⟩ = .success ⟨1, .data b, [9]⟩ r := by simp [verdict]
    simp only [Side.take, a, Side.promote, hc, Bool.and_true, Out.check, if_true, Side.inner, ha]
    show Out.ok _ = _
    simp [Side.settle, hd, a', a, Side.promote]
  exact ⟨a, a', rfl, ⟨_, [0], true, 5, _, 5, ⟨1, [9], 7⟩, b, h1, rfl, ⟨_, _, rfl⟩, by simp, hb, fun _ => rfl⟩, rfl, rfl⟩

/-- The hypotheses of `C105_deleted_partial` are met by a user who has a row. -/
example (P : Prims) : ∃ l parse a a', DB2.logFromRequest (List.replicate 16 3) .delete = .ok l ∧
    Told (svr2 P (fun _ => true) parse) l a a' ∧ a.db.find (List.replicate 16 3) ≠ none := by
  refine ⟨⟨List.replicate 16 3, .delete⟩, fun _ => some ⟨List.replicate 16 3, .delete⟩, ?_⟩
  obtain ⟨a, a', h1, h2, _⟩ := can_be_told (pr := svr2 P (fun _ => true) fun _ => some ⟨List.replicate 16 3, .delete⟩) (b := [1]) rfl
    (d := DB2.empty.insert (List.replicate 16 3) ⟨1, 3, 16, List.replicate 48 1, List.replicate 32 2, []⟩) rfl
  exact ⟨a, a', rfl, h2, by rw [h1]; simp⟩

/-- The same for SVR3, SVR4 and SVR5. -/
example (P : DB3.Prims3) : ∃ l parse a a', DB3.logFromRequest (List.replicate 16 3) [] .remove = .ok l ∧
    Told (svr3 P (fun _ => true) parse) l a a' ∧ a.db.find (List.replicate 16 3) ≠ none := by
  refine ⟨⟨List.replicate 16 3, .remove, []⟩, fun _ => some ⟨List.replicate 16 3, .remove, []⟩, ?_⟩
  obtain ⟨a, a', h1, h2, _⟩ := can_be_told (pr := svr3 P (fun _ => true) fun _ => some ⟨List.replicate 16 3, .remove, []⟩) (b := [1]) rfl
    (d := DB3.empty.insert (List.replicate 16 3) ⟨List.replicate 32 1, 3, []⟩) rfl
  exact ⟨a, a', rfl, h2, by rw [h1]; simp⟩

example (P : DB4.Prims4) (x : DB4.Row) : ∃ l parse a a', DB4.logFromRequest (List.replicate 16 3) .remove = .ok l ∧
    Told (svr4 P (fun _ => true) parse) l a a' ∧ a.db.rows.find (List.replicate 16 3) ≠ none := by
  refine ⟨⟨List.replicate 16 3, .remove⟩, fun _ => some ⟨List.replicate 16 3, .remove⟩, ?_⟩
  obtain ⟨a, a', h1, h2, _⟩ := can_be_told (pr := svr4 P (fun _ => true) fun _ => some ⟨List.replicate 16 3, .remove⟩) (b := [1]) rfl
    (d := ⟨OMap.empty.insert (List.replicate 16 3) x, OMap.empty⟩) rfl
  exact ⟨a, a', rfl, h2, by rw [h1]; simp⟩

example (P : DB5.Prims5) : ∃ l parse a a', DB5.logFromRequest (List.replicate 16 3) .purge = .ok l ∧
    Told (svr5 P (fun _ => true) parse) l a a' ∧ a.db.find (List.replicate 16 3) ≠ none := by
  refine ⟨⟨List.replicate 16 3, .purge⟩, fun _ => some ⟨List.replicate 16 3, .purge⟩, ?_⟩
  obtain ⟨a, a', h1, h2, _⟩ := can_be_told (pr := svr5 P (fun _ => true) fun _ => some ⟨List.replicate 16 3, .purge⟩) (b := [1]) rfl
    (d := DB5.empty.insert (List.replicate 16 3) ⟨List.replicate 32 1, []⟩) rfl
  exact ⟨a, a', rfl, h2, by rw [h1]; simp⟩

/-- **C105, the weakness.** Entries are not validated before they are proposed: a request that the database refuses is reported to the host
as a success, in every state of the database, and leaves it unchanged. -/
theorem C105_refused_reported_as_success {pr : Proto D L E} {l : L} (hv : pr.valid l = false) {b : Bytes} (hb : pr.parse b = some l) (d : D) :
    (∃ a a' : Side D E, a.db = d ∧ Told pr l a a') ∧ ∀ a a' : Side D E, Told pr l a a' → a'.db = a.db := by
  obtain ⟨a, a', h1, h2, _⟩ := can_be_told hb (d := d) (d' := d) (r := none) (by simp [applyDb, hb, hv])
  exact ⟨⟨a, a', h1, h2⟩, fun _ _ h => h.run.2 hv⟩

/-- A backup with a PIN hash of the wrong size, for SVR2: `LogFromRequest` makes a log entry of it, the host is told of success, and a user
who had no backup still has none. -/
theorem C105_success_without_effect {P : Prims} {path : Bytes → Bool} {id data pin : Bytes} {n : UInt32} (hid : id.length = DB2.BACKUP_ID_SIZE)
    (hp : pin.length ≠ DB2.PIN_SIZE) : ∃ l parse, DB2.logFromRequest id (.backup data pin n) = .ok l ∧
      ∃ a a', Told (svr2 P path parse) l a a' ∧ a'.db.find id = none := by
  refine ⟨⟨id, .backup data pin n⟩, fun _ => some ⟨id, .backup data pin n⟩, by simp [DB2.logFromRequest, hid], ?_⟩
  obtain ⟨⟨a, a', h1, h2⟩, h3⟩ := C105_refused_reported_as_success (pr := svr2 P path fun _ => some ⟨id, .backup data pin n⟩)
    (l := ⟨id, .backup data pin n⟩) (by simp [svr2, DB2.validate, hid, hp]) (b := [1]) rfl DB2.empty
  exact ⟨a, a', h2, by rw [h3 a a' h2, h1]; rfl⟩

end Svr.Props.HostDelete
