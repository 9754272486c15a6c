import Verif.DB2Proofs
import Verif.Spec.Vault2Facts

/-!
# SVR2 properties (C01, C02, C03, C18 for SVR2)

Every statement is about `DB2.runAll`, i.e. histories of entries applied to an initially empty
database, and about the responses. `respsOf a logs rs` selects from the responses `rs` the ones to the
entries of account `a`. The integrity-tree walk is assumed to succeed (`fun _ => true`), which is what
`Merkle` proves for an untampered tree.
-/

namespace Svr.Props.DB2
open Svr.DB2 Svr.Spec2

/-- The requests account `a` made in a history. -/
def reqsOf (a : Bytes) (logs : List Log) : List Req := (logs.filter (fun l => l.id = a)).map (·.req)

/-- The responses to account `a`'s requests. -/
def respsOf (a : Bytes) : List Log → List Resp → List Resp
  | l :: ls, r :: rs => if l.id = a then r :: respsOf a ls rs else respsOf a ls rs
  | _, _ => []

/-- Untampered integrity tree. -/
def intact : Bytes → Bool := fun _ => true

/-- Every entry passes `ValidateClientLog`. -/
def Valid (logs : List Log) : Prop := ∀ l ∈ logs, validate l = none

instance (logs : List Log) : Decidable (Valid logs) := by unfold Valid; infer_instance

theorem reqsOf_pairs (a : Bytes) (logs : List Log) : KMachine.reqsOf a (pairs logs) = reqsOf a logs := by
  induction logs with
  | nil => rfl
  | cons l ls ih =>
    by_cases h : l.id = a
    · simp only [KMachine.reqsOf, pairs, reqsOf] at ih ⊢
      simp [h, ih]
    · simp only [KMachine.reqsOf, pairs, reqsOf] at ih ⊢
      simp [h, ih]

theorem respsOf_pairs (a : Bytes) (logs : List Log) (rs : List Resp) :
    KMachine.respsOf a (pairs logs) rs = respsOf a logs rs := by
  induction logs generalizing rs with
  | nil => cases rs <;> rfl
  | cons l ls ih =>
    cases rs with
    | nil => rfl
    | cons r rs =>
      have hp : pairs (l :: ls) = (l.id, l.req) :: pairs ls := rfl
      rw [hp]; simp only [KMachine.respsOf, respsOf, ih]

theorem reqsOf_append (a : Bytes) (l1 l2 : List Log) : reqsOf a (l1 ++ l2) = reqsOf a l1 ++ reqsOf a l2 := by
  simp [reqsOf]

/-- Work horse: the run from the empty database, through the specification. -/
theorem runAll_spec (P : Prims) (logs : List Log) (hv : Valid logs) :
    ∃ db rs, runAll P intact empty logs = .ok (db, rs) ∧ rs.length = logs.length ∧
      ∀ a, respsOf a logs rs = (vrun none (reqsOf a logs)).2 := by
  obtain ⟨h1, _⟩ := runAll_rep P logs OMap.empty allWF_empty hv
  rw [rep_empty] at h1
  refine ⟨_, _, h1, ?_, ?_⟩
  · rw [KMachine.runAll_length]; simp [pairs]
  · intro a
    rw [← respsOf_pairs, KMachine.respsOf_runAll, rowRun_eq_vrun, reqsOf_pairs]; rfl

/-- **C02**: the responses an account gets are exactly those of the vault specification on that
account's own requests. -/
theorem C02_responses_follow_vault (P : Prims) (logs : List Log) (hv : Valid logs) (a : Bytes) :
    ∃ db rs, runAll P intact empty logs = .ok (db, rs) ∧ rs.length = logs.length ∧
      respsOf a logs rs = (vrun none (reqsOf a logs)).2 := by
  obtain ⟨db, rs, h, hl, hs⟩ := runAll_spec P logs hv
  exact ⟨db, rs, h, hl, hs a⟩

theorem backup_tries_pos {logs : List Log} (hv : Valid logs) {a s p : Bytes} {n : UInt32}
    (h : Req.backup s p n ∈ reqsOf a logs) : 1 ≤ n.toNat := by
  simp only [reqsOf, List.mem_map, List.mem_filter] at h
  obtain ⟨l, ⟨hl, _⟩, hq⟩ := h
  have := hv l hl
  obtain ⟨id, req⟩ := l
  subst hq
  exact (validate_backup this).left_pos

/-- The last response of a non-empty run is the last answer to that entry's account. -/
theorem last_resp (P : Prims) (logs : List Log) (l : Log) (hv : Valid (logs ++ [l])) :
    ∃ db rs, runAll P intact empty (logs ++ [l]) =
      .ok (db, rs ++ [(vstep (vrun none (reqsOf l.id logs)).1 l.req).2]) ∧ rs.length = logs.length := by
  obtain ⟨h1, _⟩ := runAll_rep P (logs ++ [l]) OMap.empty allWF_empty hv
  rw [rep_empty] at h1
  have hp : pairs (logs ++ [l]) = pairs logs ++ [(l.id, l.req)] := by simp [pairs]
  refine ⟨(rep P (machine.runAll OMap.empty (pairs (logs ++ [l]))).1),
    (machine.runAll OMap.empty (pairs logs)).2, ?_, ?_⟩
  · change runAll P intact empty (logs ++ [l]) = _ at h1
    rw [h1, hp, KMachine.runAll_append]
    simp only [KMachine.runAll, KMachine.run1]
    have : (machine.runAll OMap.empty (pairs logs)).1.find l.id = (vrun none (reqsOf l.id logs)).1 := by
      rw [KMachine.find_runAll, rowRun_eq_vrun, reqsOf_pairs]; rfl
    rw [this]; rfl
  · rw [KMachine.runAll_length]; simp [pairs]

/-- **C02** (in terms of the history): a `Restore` with PIN `g` is answered OK with secret `s` and
counter `t` exactly when the account's latest `Backup` stored `s` under `g`, it has not been deleted,
somebody presented `s` in an `Expose` since, and the number of wrong guesses since that `Expose` is below
the `max_tries` of the backup, `t` being the difference. -/
theorem C02_restore_ok_iff (P : Prims) (logs : List Log) (a g s : Bytes) (t : Nat)
    (hv : Valid (logs ++ [⟨a, .restore g⟩])) :
    (∃ db rs, runAll P intact empty (logs ++ [⟨a, .restore g⟩]) = .ok (db, rs ++ [.restore .ok s t])) ↔
      ∃ pre post n, reqsOf a logs = pre ++ .backup s g n :: post ∧ (∀ q ∈ post, resets q = false) ∧
        post.any (exposes s) = true ∧ wrongs s g post < n.toNat ∧ t = n.toNat - wrongs s g post := by
  have hv' : Valid logs := fun l hl => hv l (List.mem_append_left _ hl)
  rw [← restore_ok_iff (reqsOf a logs) (fun s p n h => backup_tries_pos hv' h) g s t]
  obtain ⟨db, rs, h, _⟩ := last_resp P logs ⟨a, .restore g⟩ hv
  rw [h]
  constructor
  · rintro ⟨db', rs', e⟩
    simp only [Out.ok.injEq, Prod.mk.injEq] at e
    have := (List.append_inj' e.2 rfl).2
    simpa using this
  · intro e
    exact ⟨db, rs, by rw [e]⟩

/-- A history in which account `a` makes a backup and does not make another one afterwards. -/
structure OneBackup (a s p : Bytes) (n : UInt32) (before after : List Log) : Prop where
  valid : Valid (before ++ ⟨a, .backup s p n⟩ :: after)
  noBackup : ∀ q ∈ reqsOf a after, isBackup q = false

/-- The answers account `a` gets after its backup. -/
theorem resps_after (P : Prims) {a s p : Bytes} {n : UInt32} {before after : List Log}
    (h : OneBackup a s p n before after) :
    ∃ db rs r rs', runAll P intact empty (before ++ ⟨a, .backup s p n⟩ :: after) = .ok (db, rs ++ r :: rs') ∧
      rs.length = before.length ∧ rs'.length = after.length ∧
      respsOf a after rs' = (vrun (some ⟨s, p, n.toNat, false⟩) (reqsOf a after)).2 := by
  obtain ⟨h1, _⟩ := runAll_rep P _ OMap.empty allWF_empty h.valid
  rw [rep_empty] at h1
  have hp : pairs (before ++ ⟨a, .backup s p n⟩ :: after) =
      pairs before ++ (a, .backup s p n) :: pairs after := by simp [pairs]
  change runAll P intact empty _ = _ at h1
  rw [hp, KMachine.runAll_append] at h1
  refine ⟨_, _, _, _, h1, ?_, ?_, ?_⟩
  · rw [KMachine.runAll_length]; simp [pairs]
  · rw [KMachine.runAll_length]; simp [pairs]
  · rw [← respsOf_pairs, KMachine.respsOf_runAll, rowRun_eq_vrun, reqsOf_pairs]
    simp [KMachine.run1, machine, vstep]

/-- **C01** (counting): after a `Backup` with `max_tries = n`, whatever any account does and as long as
this account makes no new backup, the counters reported with PIN_MISMATCH are `n-1, n-2, …` in this
order without gaps, and there are at most `n-1` of them. -/
theorem C01_mismatches_count_down (P : Prims) {a s p : Bytes} {n : UInt32} {before after : List Log}
    (h : OneBackup a s p n before after) :
    ∃ db rs r rs', runAll P intact empty (before ++ ⟨a, .backup s p n⟩ :: after) = .ok (db, rs ++ r :: rs') ∧
      rs.length = before.length ∧
      ∃ k, k ≤ n.toNat - 1 ∧
        mismatchTries (respsOf a after rs') = (List.range k).map (fun i => n.toNat - 1 - i) := by
  obtain ⟨db, rs, r, rs', h1, h2, _, h3⟩ := resps_after P h
  refine ⟨db, rs, r, rs', h1, h2, ?_⟩
  rw [h3]
  exact mismatch_countdown _ ⟨s, p, n.toNat, false⟩ h.noBackup

/-- **C01** (what an attacker can learn): fix everything except the stored PIN. There is a set of at most
`n` PINs such that for any two stored PINs outside it all answers to the account are the same. So
whatever the requests, at most `n` guesses are ever tested against the stored PIN. -/
theorem C01_at_most_n_pins_tested (P : Prims) (a s : Bytes) (n : UInt32) (before after : List Log)
    (hval : Valid (before ++ after)) (hid : a.length = 16) (hs : 16 ≤ s.length ∧ s.length ≤ 48)
    (hn : 1 ≤ n.toNat ∧ n.toNat ≤ 255) (hnb : ∀ q ∈ reqsOf a after, isBackup q = false) :
    ∃ G : List Bytes, G.length ≤ n.toNat ∧
      ∀ p p', p.length = 32 → p'.length = 32 → p ∉ G → p' ∉ G →
        ∃ db db' rs rs' r r' qs qs',
          runAll P intact empty (before ++ ⟨a, .backup s p n⟩ :: after) = .ok (db, rs ++ r :: qs) ∧
          runAll P intact empty (before ++ ⟨a, .backup s p' n⟩ :: after) = .ok (db', rs' ++ r' :: qs') ∧
          rs.length = before.length ∧ rs'.length = before.length ∧
          respsOf a after qs = respsOf a after qs' := by
  obtain ⟨G, hG, hh⟩ := tests_at_most (reqsOf a after) s n.toNat false hnb hn.1
  refine ⟨G, hG, fun p p' hp hp' h1 h2 => ?_⟩
  have one : ∀ x : Bytes, x.length = 32 → OneBackup a s x n before after := by
    intro x hx
    refine ⟨?_, hnb⟩
    intro l hl
    rcases List.mem_append.mp hl with hl | hl
    · exact hval l (List.mem_append_left _ hl)
    · rcases List.mem_cons.mp hl with rfl | hl
      · unfold validate
        rw [if_neg (fun h => h hid)]
        simp only
        rw [if_neg (fun h => h hx), if_neg (show ¬ s.length > MAX_DATA_SIZE from Nat.not_lt.mpr hs.2),
          if_neg (show ¬ s.length < MIN_DATA_SIZE from Nat.not_lt.mpr hs.1),
          if_neg (show ¬ n.toNat > MAX_ALLOWED_MAX_TRIES from Nat.not_lt.mpr hn.2), if_neg (show ¬ n.toNat < MIN_ALLOWED_MAX_TRIES from Nat.not_lt.mpr hn.1)]
      · exact hval l (List.mem_append_right _ hl)
  obtain ⟨db, rs, r, qs, e1, e2, _, e3⟩ := resps_after P (one p hp)
  obtain ⟨db', rs', r', qs', e1', e2', _, e3'⟩ := resps_after P (one p' hp')
  exact ⟨db, db', rs, rs', r, r', qs, qs', e1, e1', e2, e2', by rw [e3, e3', hh p p' h1 h2]⟩

/-- **C01** (exhaustion): once `n` wrong guesses were made after a matching `Expose`, no later
`Restore` is answered OK, whatever PIN it presents, as long as there is no new `Backup`. -/
theorem C01_exhausted_never_ok (P : Prims) {a s p : Bytes} {n : UInt32} {before mid after : List Log}
    (h : OneBackup a s p n before (mid ++ after))
    (hmid : ∀ q ∈ reqsOf a mid, resets q = false)
    (hex : (reqsOf a mid).any (exposes s) = true)
    (hw : n.toNat ≤ wrongs s p (reqsOf a mid)) (g d : Bytes) (t : Nat) (hg : g.length = 32) :
    ¬ ∃ db rs, runAll P intact empty ((before ++ ⟨a, .backup s p n⟩ :: (mid ++ after)) ++ [⟨a, .restore g⟩]) =
      .ok (db, rs ++ [.restore .ok d t]) := by
  have hmem : (⟨a, .backup s p n⟩ : Log) ∈ before ++ ⟨a, .backup s p n⟩ :: (mid ++ after) := by simp
  have hid : a.length = 16 := validate_none_id (h.valid _ hmem)
  have hv : Valid ((before ++ ⟨a, .backup s p n⟩ :: (mid ++ after)) ++ [⟨a, .restore g⟩]) := by
    intro l hl
    rcases List.mem_append.mp hl with hl | hl
    · exact h.valid l hl
    · rw [List.mem_singleton.mp hl]
      simp [validate, BACKUP_ID_SIZE, PIN_SIZE, hid, hg]
  rintro ⟨db, rs, e⟩
  obtain ⟨db', rs', e', _⟩ := last_resp P _ ⟨a, .restore g⟩ hv
  rw [e'] at e
  simp only [Out.ok.injEq, Prod.mk.injEq] at e
  have hr := (List.append_inj' e.2 rfl).2
  have hsplit : reqsOf a (before ++ ⟨a, .backup s p n⟩ :: (mid ++ after)) =
      (reqsOf a before ++ [.backup s p n]) ++ (reqsOf a mid ++ reqsOf a after) := by
    simp [reqsOf]
  have hn1 : 1 ≤ n.toNat := (validate_backup (h.valid _ hmem)).left_pos
  have hst : (vrun none (reqsOf a (before ++ ⟨a, .backup s p n⟩ :: (mid ++ after)))).1 = none := by
    rw [hsplit]
    simp only [vrun_append, vrun, vstep]
    rw [vrun_after_backup _ s p n.toNat hn1 hmid, if_pos hex, if_neg (by omega)]
    apply vrun_none_noBackup
    intro q hq
    exact h.noBackup q (by rw [reqsOf_append]; exact List.mem_append_right _ hq)
  rw [hst] at hr
  simp [vstep] at hr

/-- **C03**: between a `Backup` and the first `Expose` presenting the stored secret, the account's
`Restore` requests are all answered MISSING with nothing released, and no guess is consumed: `Tries`
keeps reporting `n`, not exposed. -/
theorem C03_not_restorable_before_expose (P : Prims) {a s p : Bytes} {n : UInt32} {before after : List Log}
    (h : OneBackup a s p n before after)
    (hdel : ∀ q ∈ reqsOf a after, resets q = false)
    (hne : ∀ q ∈ reqsOf a after, exposes s q = false) :
    ∃ db rs r rs', runAll P intact empty (before ++ ⟨a, .backup s p n⟩ :: after) = .ok (db, rs ++ r :: rs') ∧
      rs.length = before.length ∧
      respsOf a after rs' = (reqsOf a after).map (fun q => match q with
        | .restore _ => .restore .missing [] 0
        | .expose _ => .expose false
        | .tries => .tries true n.toNat false
        | _ => .empty) := by
  obtain ⟨db, rs, r, rs', h1, h2, _, h3⟩ := resps_after P h
  refine ⟨db, rs, r, rs', h1, h2, ?_⟩
  rw [h3]
  generalize reqsOf a after = qs at hdel hne ⊢
  induction qs with
  | nil => rfl
  | cons q qs ih =>
    have hq := hdel q List.mem_cons_self
    have hx := hne q List.mem_cons_self
    have ih' := ih (fun x hx => hdel x (List.mem_cons_of_mem _ hx)) (fun x hx => hne x (List.mem_cons_of_mem _ hx))
    cases q with
    | backup _ _ _ => simp [resets] at hq
    | delete => simp [resets] at hq
    | restore g => simp [vrun, vstep, ih']
    | expose d =>
      have hp : ¬ s <+: d := by simpa [exposes] using hx
      simp [vrun, vstep, hp, ih']
    | tries => simp [vrun, vstep, ih']
    | unset => simp [vrun, vstep, ih']

/-! ### Non-vacuity -/

section Examples
def ida : Bytes := List.replicate 16 1
def idb : Bytes := List.replicate 16 2
def sec : Bytes := List.replicate 20 7
def pinA : Bytes := List.replicate 32 3
def pinX : Bytes := List.replicate 32 4
def P0 : Prims := ⟨fun b => b, fun b => b⟩

/-- A backup with two tries, an expose, one wrong guess and a good one, interleaved with account b. -/
def hist : List Log :=
  [⟨ida, .backup sec pinA 2⟩, ⟨idb, .tries⟩, ⟨ida, .expose sec⟩, ⟨ida, .restore pinX⟩, ⟨idb, .delete⟩]

example : Valid (hist ++ [⟨ida, .restore pinA⟩]) := by decide
example : (vrun none (reqsOf ida hist)).2 = [.backup, .expose true, .restore .pinMismatch [] 1] := by decide
/-- The hypotheses and the right-hand side of `C02_restore_ok_iff` are met by a concrete history. -/
example : reqsOf ida hist = [] ++ .backup sec pinA 2 :: [.expose sec, .restore pinX] ∧
    ([Req.expose sec, .restore pinX].any (exposes sec) = true) ∧
    wrongs sec pinA [Req.expose sec, .restore pinX] < (2 : UInt32).toNat := by decide
example : OneBackup ida sec pinA 2 [⟨idb, .tries⟩] [⟨ida, .expose sec⟩, ⟨ida, .restore pinX⟩] :=
  ⟨by decide, by decide⟩
/-- Hypotheses of the exhaustion theorem: two wrong guesses after the expose. -/
example : OneBackup ida sec pinA 2 [] ([⟨ida, .expose sec⟩, ⟨ida, .restore pinX⟩, ⟨ida, .restore pinX⟩] ++ []) ∧
    (2 : UInt32).toNat ≤ wrongs sec pinA (reqsOf ida [⟨ida, .expose sec⟩, ⟨ida, .restore pinX⟩, ⟨ida, .restore pinX⟩]) :=
  ⟨⟨by decide, by decide⟩, by decide⟩
/-- Hypotheses of C03: guesses and a wrong expose before the real one. -/
example : OneBackup ida sec pinA 2 [] [⟨ida, .restore pinA⟩, ⟨ida, .expose pinX⟩, ⟨ida, .tries⟩] ∧
    ∀ q ∈ reqsOf ida [⟨ida, .restore pinA⟩, ⟨ida, .expose pinX⟩, ⟨ida, .tries⟩], exposes sec q = false :=
  ⟨⟨by decide, by decide⟩, by decide⟩
end Examples

end Svr.Props.DB2
