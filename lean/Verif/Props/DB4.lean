import Verif.DB4Load
import Verif.Session4
import Verif.Spec.Vault4Facts

/-!
# SVR4 properties (C04–C06, C09–C13, C15–C18 for SVR4)

`SaddOK P` (sums of canonical scalars are canonical scalars) is the only fact about the group used.
-/

namespace Svr.Props.DB4
open Svr.DB4 Svr.Spec4

/-- Apply a history of entries. -/
def runAll (P : Prims4) (path : Bytes → Bool) : DB → List Log → Out (DB × List Effect) := runList (run P path)

/-- Every entry passes `ValidateClientLog`. -/
def Valid (P : Prims4) (logs : List Log) : Prop := ∀ l ∈ logs, validate P l = none
instance (P : Prims4) (logs : List Log) : Decidable (Valid P logs) := by unfold Valid; infer_instance

abbrev entries (a : Bytes) (ls : List Log) : List Log := entriesOf (·.id) a ls
abbrev answers (a : Bytes) (ls : List Log) (rs : List Effect) : List Effect := answersOf (·.id) a ls rs

/-- The run, through the specification. -/
theorem runAll_spec (P : Prims4) (hs : SaddOK P) (logs : List Log) (hv : Valid P logs) (db : DB) (hi : Inv P db) :
    ∃ db' rs, runAll P intact db logs = .ok (db', rs) ∧ Inv P db' ∧ rs.length = logs.length ∧
      ∀ a, look db' a = (specRun (astep P) (look db a) (entries a logs)).1 ∧
        answers a logs rs = (specRun (astep P) (look db a) (entries a logs)).2 :=
  (sim P hs).runList_spec logs db hi hv

/-- A history in which account `a` makes a Create setting `n` tries, and no later Create sets tries. -/
structure OneCreate (P : Prims4) (a : Bytes) (n : UInt32) (l : Log) (before after : List Log) : Prop where
  valid : Valid P (before ++ l :: after)
  id : l.id = a
  create : ∃ o au e z v, l.req = .create n o au e z v
  tries : n ≠ 0
  noReset : NoReset (entries a after)

/-- **C09**: after a Create setting `n` tries, the Restore1 requests evaluated (answered OK or ERROR)
until the next Create that sets tries report exactly `n-1, n-2, ...` tries left: at most `n` of them,
whatever rotations, zero-tries Creates, failing group operations or other requests happen in between.
Once 0 is reported the account and its pending rotation are gone and nothing answers for it. -/
theorem C09_restore1_counts_down (P : Prims4) (hs : SaddOK P) {a : Bytes} {n : UInt32} {l : Log} {before after : List Log}
    (h : OneCreate P a n l before after) :
    ∃ db rs rs', runAll P intact empty (before ++ l :: after) = .ok (db, rs ++ ⟨.create .ok n.toNat, none⟩ :: rs') ∧
      rs.length = before.length ∧
      (∃ m, m ≤ n.toNat ∧ evalTries (answers a after rs') = (List.range m).map (fun i => n.toNat - 1 - i)) ∧
      ∀ pre x post, answers a after rs' = pre ++ x :: post → lastTry x = true →
        db.rows.find a = none ∧ db.rot.find a = none ∧ ∀ y ∈ post, live y = false := by
  obtain ⟨o, au, e, z, v, hreq⟩ := h.create
  have hvl := h.valid l (by simp)
  obtain ⟨db1, rs1, e1, i1, l1, s1⟩ := runAll_spec P hs before (fun x hx => h.valid x (by simp [hx])) empty (inv_empty P)
  obtain ⟨db2, h2, i2, k2, _⟩ := run_sim P hs db1 l i1 hvl
  obtain ⟨db3, rs3, e3, i3, l3, s3⟩ := runAll_spec P hs after (fun x hx => h.valid x (by simp [hx])) db2 i2
  have hstep : ∃ acc : Acct, acc.left = n.toNat ∧ (astep P (look db1 l.id) l).1 = some acc ∧
      (astep P (look db1 l.id) l).2 = ⟨.create .ok n.toNat, none⟩ := by
    cases look db1 l.id with
    | none => exact ⟨⟨au, o, e, z, v, n.toNat, none⟩, rfl, by simp [astep, hreq, h.tries], by simp [astep, hreq, h.tries]⟩
    | some w => exact ⟨⟨au, o, e, z, v, n.toNat, none⟩, rfl, by simp [astep, hreq, h.tries], by simp [astep, hreq, h.tries]⟩
  obtain ⟨acc, hleft, hacc, hresp⟩ := hstep
  have hn1 : 1 ≤ n.toNat := by
    rcases Nat.eq_zero_or_pos n.toNat with h0 | h0
    · exact absurd (UInt32.toNat_inj.mp (by simpa using h0)) h.tries
    · exact h0
  refine ⟨db3, rs1, rs3, ?_, l1, ?_, ?_⟩
  · unfold runAll at e1 e3 ⊢
    rw [runList_append, e1]
    simp only [Out.bind_ok, runList, h2, e3, Out.pure_eq, hresp]
  · rw [(s3 a).2, ← h.id, k2, hacc, h.id, ← hleft]
    exact countdown P _ acc h.noReset (by omega)
  · intro pre x post hx hlt
    have h1 := (s3 a).1
    have h2' := (s3 a).2
    rw [← h.id, k2, hacc, h.id] at h1 h2'
    rw [h2'] at hx
    obtain ⟨hn, hd⟩ := zero_then_dead P _ acc h.noReset (by omega) pre post x hlt hx
    rw [hn] at h1
    have hrow : db3.rows.find a = none := by
      cases hf : db3.rows.find a with
      | none => rfl
      | some r => simp [look, hf] at h1
    refine ⟨hrow, ?_, hd⟩
    have := i3 a
    rw [hrow] at this
    exact this

/-- The session holds a Restore1 result that was not followed by any request. -/
theorem session_state (P : Prims4) (es : List SEv) (s : Session) (hs : s.restore2 = none) (st : R2State)
    (h : (runS P s es).1.restore2 = some st) :
    ∃ pre e post auth t, es = pre ++ .effect e :: post ∧ e.resp = .restore1 .ok auth t ∧
      st = e.r2.getD R2State.default ∧ ∀ x ∈ post, ∃ e', x = .effect e' := by
  suffices H : ∀ (es : List SEv) (s : Session), (runS P s es).1.restore2 = some st →
      (s.restore2 = some st ∧ ∀ x ∈ es, ∃ e', x = .effect e') ∨
      ∃ pre e post auth t, es = pre ++ .effect e :: post ∧ e.resp = .restore1 .ok auth t ∧
      st = e.r2.getD R2State.default ∧ ∀ x ∈ post, ∃ e', x = .effect e' by
    rcases H es s h with h | h
    · rw [hs] at h; cases h.1
    · exact h
  intro es
  induction es with
  | nil => intro s h; exact Or.inl ⟨h, by simp⟩
  | cons x es ih =>
    intro s h
    simp only [runS] at h
    rcases ih _ h with ⟨h1, h2⟩ | ⟨pre, e, post, auth, t, rfl, h1, h2, h3⟩
    · cases x with
      | request r =>
        exfalso
        have : (stepS P s (.request r)).1.restore2 = none := by
          simp only [stepS, responseFromRequest]
          cases r with
          | restore2 ap sc v =>
            simp only
            by_cases hl : s.id.length ≠ BACKUP_ID_SIZE
            · rw [if_pos hl]
            · rw [if_neg hl]
              cases s.restore2 with
              | none => rfl
              | some st =>
                simp only
                by_cases hb : okScalar P sc = false ∨ okPoint P ap = false
                · rw [if_pos hb]
                · rw [if_neg hb]
          | _ => rfl
        rw [this] at h1; cases h1
      | effect e =>
        by_cases hok : ∃ auth t, e.resp = .restore1 .ok auth t
        · obtain ⟨auth, t, hr⟩ := hok
          simp only [stepS, responseFromEffect, hr, Option.some.injEq] at h1
          exact Or.inr ⟨[], e, es, auth, t, rfl, hr, h1.symm, h2⟩
        · have : (stepS P s (.effect e)).1 = s := by
            simp only [stepS, responseFromEffect]
            split
            · rename_i auth t hr; exact absurd ⟨auth, t, hr⟩ hok
            · rfl
          rw [this] at h1
          refine Or.inl ⟨h1, ?_⟩
          intro y hy
          rcases List.mem_cons.mp hy with rfl | hy
          · exact ⟨e, rfl⟩
          · exact h2 y hy
    · exact Or.inr ⟨x :: pre, e, post, auth, t, rfl, h1, h2, h3⟩

/-- The proof accepted by Restore2: `scalar * G = point + H(point, blinded, handshake) * commitment`. -/
def ProofOK (P : Prims4) (point scalar commitment blinded handshake : Bytes) : Prop :=
  ∃ l r, P.mulBase scalar = some l ∧ P.smul (P.challenge point blinded handshake) commitment = some r ∧
    P.padd point r = some l

theorem restore2_ok {P : Prims4} {ap sc : Bytes} {ver : UInt32} {st : R2State} {hh share : Bytes}
    (h : restore2 P ap sc ver st hh = .restore2 .ok share) :
    ProofOK P ap sc st.auth st.blinded hh ∧
    ((ver.toUInt64 = st.version ∧ share = st.enc) ∨
      (ver.toUInt64 ≠ st.version ∧ ver.toUInt64 = st.newVersion ∧ share = st.newEnc)) := by
  unfold restore2 at h
  split at h
  · simp at h
  · cases h1 : P.mulBase sc with
    | none => rw [h1] at h; simp at h
    | some l =>
      rw [h1] at h
      simp only at h
      split at h
      · simp at h
      · cases h2 : P.smul (P.challenge ap st.blinded hh) st.auth with
        | none => rw [h2] at h; simp at h
        | some r =>
          rw [h2] at h
          simp only at h
          split at h
          · simp at h
          · cases h3 : P.padd ap r with
            | none => rw [h3] at h; simp at h
            | some r2 =>
              rw [h3] at h
              simp only at h
              cases h4 : ctEq l r2 with
              | false => rw [h4] at h; simp at h
              | true =>
                rw [h4] at h
                rw [ctEq_iff] at h4
                subst h4
                refine ⟨⟨l, r, h1, h2, h3⟩, ?_⟩
                simp only [Bool.not_true, Bool.false_eq_true, if_false] at h
                split at h
                · rename_i hv
                  injection h with _ h5
                  exact Or.inl ⟨hv, h5.symm⟩
                · rename_i hv
                  split at h
                  · rename_i hv2
                    injection h with _ h5
                    exact Or.inr ⟨hv, hv2, h5.symm⟩
                  · simp at h

theorem request_ok {P : Prims4} {s s' : Session} {ap sc share : Bytes} {ver : UInt32}
    (h : stepS P s (.request (.restore2 ap sc ver)) = (s', some (.restore2 .ok share))) :
    ∃ st, s.restore2 = some st ∧ restore2 P ap sc ver st s.handshake = .restore2 .ok share ∧ s'.restore2 = none := by
  simp only [stepS, responseFromRequest] at h
  by_cases hl : s.id.length ≠ BACKUP_ID_SIZE
  · rw [if_pos hl] at h; simp at h
  · rw [if_neg hl] at h
    cases hst : s.restore2 with
    | none => rw [hst] at h; simp at h
    | some st =>
      rw [hst] at h
      simp only at h
      by_cases hb : okScalar P sc = false ∨ okPoint P ap = false
      · rw [if_pos hb] at h; simp at h
      · rw [if_neg hb] at h
        simp only [Prod.mk.injEq, Option.some.injEq] at h
        exact ⟨st, rfl, h.2, by rw [← h.1]⟩

/-- **C10**: a Restore2 answered with a share, after any sequence of requests and effects delivered to a
fresh session, uses the result of a Restore1 effect answered OK and delivered to this session with no
request in between. -/
theorem C10_restore2_uses_fresh_restore1 (P : Prims4) (s s' : Session) (hs : s.restore2 = none) (es : List SEv)
    (ap sc share : Bytes) (ver : UInt32)
    (h : stepS P (runS P s es).1 (.request (.restore2 ap sc ver)) = (s', some (.restore2 .ok share))) :
    (∃ pre e post auth t, es = pre ++ .effect e :: post ∧ e.resp = .restore1 .ok auth t ∧
      (∀ x ∈ post, ∃ e', x = .effect e') ∧
      restore2 P ap sc ver (e.r2.getD R2State.default) (runS P s es).1.handshake = .restore2 .ok share) ∧
    s'.restore2 = none := by
  obtain ⟨st, h1, h2, h3⟩ := request_ok h
  obtain ⟨pre, e, post, auth, t, h4, h5, h6, h7⟩ := session_state P es s hs st h1
  subst h6
  exact ⟨⟨pre, e, post, auth, t, h4, h5, h7, h2⟩, h3⟩

/-- Shares released, and OK Restore1 effects delivered. -/
def isShare : Option Resp → Bool
  | some (.restore2 .ok _) => true
  | _ => false
def isOkRestore1 : SEv → Bool
  | .effect ⟨.restore1 .ok _ _, _⟩ => true
  | _ => false
def shares (rs : List (Option Resp)) : Nat := rs.countP isShare
def okRestore1 (es : List SEv) : Nat := es.countP isOkRestore1
/-- The effects delivered are those of the database, never Restore2 answers. -/
def DBEffects (es : List SEv) : Prop := ∀ e, .effect e ∈ es → ∀ s b, e.resp ≠ .restore2 s b

/-- **C10**: a session releases at most as many shares as OK Restore1 effects were delivered to it. -/
theorem C10_shares_bounded (P : Prims4) (s : Session) (hs : s.restore2 = none) (es : List SEv) (hd : DBEffects es) :
    shares (runS P s es).2 ≤ okRestore1 es := by
  suffices H : ∀ (es : List SEv) (s : Session), DBEffects es →
      shares (runS P s es).2 ≤ okRestore1 es + (if s.restore2.isSome then 1 else 0) by
    have := H es s hd
    simpa [hs] using this
  intro es
  induction es with
  | nil => intro s _; simp [runS, shares]
  | cons x es ih =>
    intro s hd
    have ih := ih (stepS P s x).1 (fun e he => hd e (List.mem_cons_of_mem _ he))
    simp only [runS]
    cases x with
    | request r =>
      have hreq : (stepS P s (.request r)).1.restore2 = none ∧
          ((∃ b, (stepS P s (.request r)).2 = some (.restore2 .ok b)) → s.restore2.isSome = true) := by
        refine ⟨?_, ?_⟩
        · simp only [stepS, responseFromRequest]
          cases r with
          | restore2 ap sc v =>
            simp only
            by_cases hl : s.id.length ≠ BACKUP_ID_SIZE
            · rw [if_pos hl]
            · rw [if_neg hl]
              cases s.restore2 with
              | none => rfl
              | some st =>
                simp only
                by_cases hb : okScalar P sc = false ∨ okPoint P ap = false
                · rw [if_pos hb]
                · rw [if_neg hb]
          | _ => rfl
        · rintro ⟨b, hb⟩
          cases r with
          | restore2 ap sc v =>
            obtain ⟨st, h1, _⟩ := request_ok (P := P) (s := s) (s' := (stepS P s (.request (.restore2 ap sc v))).1)
              (by rw [← hb])
            simp [h1]
          | _ => simp [stepS, responseFromRequest] at hb
      rw [hreq.1] at ih
      simp only [shares, okRestore1, List.countP_cons, Option.isSome_none, Bool.false_eq_true, if_false, Nat.add_zero] at ih ⊢
      by_cases hx : isShare (stepS P s (.request r)).2 = true
      · have : ∃ b, (stepS P s (.request r)).2 = some (.restore2 .ok b) := by
          revert hx
          generalize (stepS P s (.request r)).2 = q
          intro hx
          unfold isShare at hx
          split at hx
          · exact ⟨_, rfl⟩
          · cases hx
        rw [hreq.2 this, if_pos hx]
        simp only [if_true]
        omega
      · rw [if_neg hx]
        omega
    | effect e =>
      have hnot : ∀ b, (stepS P s (.effect e)).2 ≠ some (.restore2 .ok b) := by
        intro b hb
        have : (stepS P s (.effect e)).2 = some e.resp := by
          simp only [stepS, responseFromEffect]; split <;> rfl
        rw [this] at hb
        exact hd e List.mem_cons_self _ _ (Option.some.inj hb)
      have hnc : isShare (stepS P s (.effect e)).2 = false := by
        unfold isShare
        split
        · rename_i b heq; exact absurd heq (hnot b)
        · rfl
      simp only [shares, okRestore1, List.countP_cons, hnc, Bool.false_eq_true, if_false, Nat.add_zero] at ih ⊢
      by_cases hok : ∃ auth t, e.resp = .restore1 .ok auth t
      · obtain ⟨auth, t, hr⟩ := hok
        obtain ⟨r, r2⟩ := e
        simp only at hr
        subst hr
        rw [show isOkRestore1 (.effect ⟨.restore1 .ok auth t, r2⟩) = true from rfl]
        simp only [if_true]
        have : (if (stepS P s (.effect ⟨.restore1 .ok auth t, r2⟩)).1.restore2.isSome = true then 1 else 0) ≤ 1 := by
          split <;> omega
        omega
      · have hsame : (stepS P s (.effect e)).1 = s := by
          simp only [stepS, responseFromEffect]
          split
          · rename_i auth t hr; exact absurd ⟨auth, t, hr⟩ hok
          · rfl
        rw [hsame] at ih
        have hz : isOkRestore1 (.effect e) = false := by
          unfold isOkRestore1
          split
          · rename_i auth t r2 heq
            injection heq with heq
            subst heq
            exact absurd ⟨_, _, rfl⟩ hok
          · rfl
        simp only [hsame, hz, Bool.false_eq_true, if_false, Nat.add_zero]
        omega

/-- **C11** (full statement except for version 0): take any reachable database, a Restore1 entry of the
session's account applied to it, its effect delivered to the session, and then a Restore2 for a non-zero version answered OK. Then the account existed, the proof is
valid for the commitment stored when Restore1 ran, and the share is the account's share for exactly the
version asked for: the current one, or the one a commit of the pending rotation would leave.
Missing: version 0 when no rotation is pending, see `C11_version_zero_empty_share`. -/
theorem C11_share_after_valid_proof_partial (P : Prims4) (hadd : SaddOK P) (db db' : DB) (hr : Reach P db)
    (a b : Bytes) (hv : validate P ⟨a, .restore1 b⟩ = none) (eff : Effect)
    (hrun : run P intact db ⟨a, .restore1 b⟩ = .ok (db', eff))
    (s s' : Session) (hs : s.restore2 = none) (ap sc share : Bytes) (ver : UInt32) (hver : ver ≠ 0)
    (h : stepS P (stepS P s (.effect eff)).1 (.request (.restore2 ap sc ver)) = (s', some (.restore2 .ok share))) :
    ∃ v : Acct, look db a = some v ∧ ProofOK P ap sc v.auth b s.handshake ∧
      ((ver = v.version ∧ share = v.enc) ∨
        ∃ p, v.pending = some p ∧ ver = p.newVersion ∧ ver ≠ v.version ∧ share = (rotated P v p).enc) := by
  have hi := reach_inv hadd hr
  obtain ⟨db1, h1, _, _, _⟩ := run_sim P hadd db ⟨a, .restore1 b⟩ hi hv
  rw [h1] at hrun
  simp only [Out.ok.injEq, Prod.mk.injEq] at hrun
  have heff := hrun.2.symm
  clear h1 hrun
  obtain ⟨st, h2, h3, _⟩ := request_ok h
  cases hl : look db a with
  | none =>
    rw [hl] at heff
    simp only [astep] at heff
    subst heff
    simp [stepS, responseFromEffect, hs] at h2
  | some v =>
    rw [hl] at heff
    simp only [astep] at heff
    cases he : evalAll P a b v with
    | none =>
      rw [he] at heff
      simp only at heff
      subst heff
      simp [stepS, responseFromEffect, hs] at h2
    | some es =>
      rw [he] at heff
      simp only at heff
      subst heff
      simp only [stepS, responseFromEffect, Option.getD_some, Option.some.injEq] at h2 h3
      subst h2
      obtain ⟨hp, hc⟩ := restore2_ok h3
      have inj : ∀ {x y : UInt32}, x.toUInt64 = y.toUInt64 → x = y := by
        intro x y hxy
        have := congrArg UInt64.toUInt32 hxy
        rwa [u64_u32, u64_u32] at this
      refine ⟨v, rfl, ?_, ?_⟩
      · cases hpd : v.pending <;> simpa [session, hpd] using hp
      · cases hpd : v.pending with
        | none =>
          simp only [session, hpd] at hc
          rcases hc with ⟨h1, h2⟩ | ⟨_, h1, _⟩
          · exact Or.inl ⟨inj h1, h2⟩
          · exact absurd h1 (u64_zero hver)
        | some p =>
          simp only [session, hpd] at hc
          rcases hc with ⟨h1, h2⟩ | ⟨h0, h1, h2⟩
          · exact Or.inl ⟨inj h1, h2⟩
          · exact Or.inr ⟨p, rfl, inj h1, fun e => h0 (by rw [e]), by simpa [rotated] using h2⟩

/-- Observed by Restore1 on element `b`: the evaluations and the state handed to the session. -/
def restore1OK (P : Prims4) (db : DB) (a b : Bytes) (es : List (Bytes × UInt32)) (st : R2State) : Prop :=
  ∃ t, (restore1 P intact db a b).2 = ⟨.restore1 .ok es t, some st⟩

theorem restore1OK_iff {P : Prims4} {db : DB} (hi : Inv P db) {a b : Bytes} (hb : okPoint P b = true)
    {es : List (Bytes × UInt32)} {st : R2State} :
    restore1OK P db a b es st ↔ ∃ v, look db a = some v ∧ evalAll P a b v = some es ∧ st = session v b := by
  unfold restore1OK restore1 look
  cases hf : db.rows.find a with
  | none => simp
  | some r =>
    have hr := inv_row hi hf
    simp only [verify_ok hr, intact, Bool.not_true, Bool.false_eq_true, if_false, Option.map_some, Option.some.injEq,
      exists_eq_left']
    rw [eval_spec P a b r _ hb]
    have key : ∀ (c : Prop) [Decidable c] (x y : DB) (e : Effect), (if c then (x, e) else (y, e)).2 = e := by
      intro c _ x y e; split <;> rfl
    rw [key]
    cases he : evalAll P a b (abs r (db.rot.find a)) with
    | none => simp
    | some es' =>
      simp only [Option.map_some, Effect.mk.injEq, Resp.restore1.injEq, true_and, Option.some.injEq]
      constructor
      · rintro ⟨t, ⟨h1, _⟩, h2⟩; exact ⟨h1, h2.symm⟩
      · rintro ⟨h1, h2⟩; exact ⟨_, ⟨h1, rfl⟩, h2.symm⟩

/-- One validated entry answered as stated, seen on the account. -/
theorem step_look (P : Prims4) (hs : SaddOK P) {db db' : DB} (hi : Inv P db) {l : Log} (hv : validate P l = none)
    {eff : Effect} (h : run P intact db l = .ok (db', eff)) :
    Inv P db' ∧ look db' l.id = (astep P (look db l.id) l).1 ∧ eff = (astep P (look db l.id) l).2 := by
  obtain ⟨db1, h1, h2, h3, _⟩ := run_sim P hs db l hi hv
  rw [h1] at h
  simp only [Out.ok.injEq, Prod.mk.injEq] at h
  obtain ⟨rfl, rfl⟩ := h
  exact ⟨h2, h3, rfl⟩

/-- **C12**, start: after RotateStart answered OK, a Restore1 that succeeds answers for both versions,
with the same element and share for the old version as before. -/
theorem C12_start_keeps_old (P : Prims4) (hs : SaddOK P) (db db' : DB) (h : Reach P db) (a b od ed : Bytes) (ver : UInt32)
    (hv : validate P ⟨a, .rotateStart ver od ed⟩ = none) (hb : okPoint P b = true)
    (hrun : run P intact db ⟨a, .rotateStart ver od ed⟩ = .ok (db', ⟨.rotateStart .ok, none⟩))
    (es : List (Bytes × UInt32)) (st : R2State) (hok : restore1OK P db' a b es st) :
    ∃ e old e', es = [(e, old), (e', ver)] ∧ old ≠ ver ∧
      ∃ st0, restore1OK P db a b [(e, old)] st0 ∧ st.enc = st0.enc ∧ st.version = st0.version := by
  have hi := reach_inv hs h
  obtain ⟨i2, l2, he⟩ := step_look P hs hi hv hrun
  rw [restore1OK_iff i2 hb] at hok
  obtain ⟨v', hl', hev, hst⟩ := hok
  cases hl : look db a with
  | none => simp only [hl, astep] at he; simp at he
  | some v =>
    simp only [hl, astep] at he l2
    cases hp : v.pending with
    | some p => simp [hp] at he
    | none =>
      simp only [hp] at he l2
      by_cases hve : ver = v.version
      · simp [hve] at he
      · rw [if_neg hve] at l2
        simp only at l2
        rw [hl'] at l2
        simp only [Option.some.injEq] at l2
        subst l2
        simp only [evalAll, Option.bind_eq_bind] at hev
        cases h1 : evalShare P a b v.oprf v.zero with
        | none => simp [h1] at hev
        | some e =>
          simp only [h1, Option.bind_some] at hev
          cases h2 : evalShare P a b (P.sadd v.oprf od) v.zero with
          | none => simp [h2] at hev
          | some e' =>
            simp only [h2, Option.bind_some, Option.some.injEq] at hev
            refine ⟨e, v.version, e', hev.symm, fun x => hve x.symm, session v b, ?_, ?_, ?_⟩
            · rw [restore1OK_iff hi hb]
              exact ⟨v, hl, by simp [evalAll, h1, hp], rfl⟩
            · rw [hst]; simp [session, hp]
            · rw [hst]; simp [session, hp]

/-- **C12**, commit: if before the commit a Restore1 answered for both versions, after it Restore1 answers
exactly the new version's element, and the session gets exactly the new version's share. -/
theorem C12_commit_keeps_new (P : Prims4) (hs : SaddOK P) (db db' : DB) (h : Reach P db) (a b : Bytes) (ver : UInt32)
    (hv : validate P ⟨a, .rotateCommit ver⟩ = none) (hb : okPoint P b = true)
    (hrun : run P intact db ⟨a, .rotateCommit ver⟩ = .ok (db', ⟨.rotateCommit .ok, none⟩))
    (es : List (Bytes × UInt32)) (st : R2State) (hok : restore1OK P db a b es st) :
    ∃ old e', es = [old, (e', ver)] ∧
      ∃ st', restore1OK P db' a b [(e', ver)] st' ∧ st'.enc = st.newEnc ∧ st'.version = st.newVersion ∧
        st'.version = ver.toUInt64 ∧ st'.auth = st.auth := by
  have hi := reach_inv hs h
  obtain ⟨i2, l2, he⟩ := step_look P hs hi hv hrun
  rw [restore1OK_iff hi hb] at hok
  obtain ⟨v, hl, hev, hst⟩ := hok
  simp only [hl, astep] at he l2
  cases hp : v.pending with
  | none => simp [hp] at he
  | some p =>
    simp only [hp] at he l2
    by_cases hve : p.newVersion = ver
    · rw [if_pos hve] at l2
      simp only at l2
      simp only [evalAll, hp, Option.bind_eq_bind] at hev
      cases h1 : evalShare P a b v.oprf v.zero with
      | none => simp [h1] at hev
      | some e =>
        simp only [h1, Option.bind_some] at hev
        cases h2 : evalShare P a b (P.sadd v.oprf p.oprfDelta) v.zero with
        | none => simp [h2] at hev
        | some e' =>
          simp only [h2, Option.bind_some, Option.some.injEq, hve] at hev
          refine ⟨_, e', hev.symm, session (rotated P v p) b, ?_, ?_, ?_, ?_, ?_⟩
          · rw [restore1OK_iff i2 hb]
            exact ⟨_, l2, by simp [evalAll, rotated, h2, hve], rfl⟩
          all_goals try rw [hst]
          all_goals simp [session, rotated, hp, hve]
    · simp [hve] at he

/-- **C12**, rollback: if before the rollback a Restore1 answered for both versions, after it Restore1
answers exactly the old version's element, and the session gets exactly the old version's share. -/
theorem C12_rollback_keeps_old (P : Prims4) (hs : SaddOK P) (db db' : DB) (h : Reach P db) (a b : Bytes) (ver : UInt32)
    (hv : validate P ⟨a, .rotateRollback ver⟩ = none) (hb : okPoint P b = true)
    (hrun : run P intact db ⟨a, .rotateRollback ver⟩ = .ok (db', ⟨.rotateRollback .ok, none⟩))
    (es : List (Bytes × UInt32)) (st : R2State) (hok : restore1OK P db a b es st) :
    ∃ old e', es = [old, (e', ver)] ∧
      ∃ st', restore1OK P db' a b [old] st' ∧ st'.enc = st.enc ∧ st'.version = st.version ∧
        st'.newVersion = 0 ∧ st'.auth = st.auth := by
  have hi := reach_inv hs h
  obtain ⟨i2, l2, he⟩ := step_look P hs hi hv hrun
  rw [restore1OK_iff hi hb] at hok
  obtain ⟨v, hl, hev, hst⟩ := hok
  simp only [hl, astep] at he l2
  cases hp : v.pending with
  | none => simp [hp] at he
  | some p =>
    simp only [hp] at he l2
    by_cases hve : p.newVersion = ver
    · rw [if_pos hve] at l2
      simp only at l2
      simp only [evalAll, hp, Option.bind_eq_bind] at hev
      cases h1 : evalShare P a b v.oprf v.zero with
      | none => simp [h1] at hev
      | some e =>
        simp only [h1, Option.bind_some] at hev
        cases h2 : evalShare P a b (P.sadd v.oprf p.oprfDelta) v.zero with
        | none => simp [h2] at hev
        | some e' =>
          simp only [h2, Option.bind_some, Option.some.injEq, hve] at hev
          refine ⟨_, e', hev.symm, session { v with pending := none } b, ?_, ?_, ?_, ?_, ?_⟩
          · rw [restore1OK_iff i2 hb]
            exact ⟨_, l2, by simp [evalAll, h1], rfl⟩
          all_goals try rw [hst]
          all_goals simp [session, hp]
    · simp [hve] at he

/-- **C12**, nothing else: of all validated entries only Create, RotateCommit answered OK, Remove and a
Restore1 using the last try change the key material of an account; and only those, RotateStart answered OK
and RotateRollback answered OK change its pending rotation. -/
theorem C12_only_rotation_changes_keys (P : Prims4) (hs : SaddOK P) (db db' : DB) (h : Reach P db) (l : Log)
    (hv : validate P l = none) (eff : Effect) (hrun : run P intact db l = .ok (db', eff))
    (r : Row) (hr : db.rows.find l.id = some r)
    (h1 : ∀ n o a e z v, l.req ≠ .create n o a e z v) (h2 : eff.resp ≠ .rotateCommit .ok) (h3 : l.req ≠ .remove)
    (h4 : lastTry eff = false) :
    ∃ r', db'.rows.find l.id = some r' ∧ r'.auth = r.auth ∧ r'.oprf = r.oprf ∧ r'.enc = r.enc ∧ r'.zero = r.zero ∧
      r'.version = r.version ∧
      (eff.resp ≠ .rotateStart .ok → eff.resp ≠ .rotateRollback .ok → db'.rot.find l.id = db.rot.find l.id) := by
  have hi := reach_inv hs h
  obtain ⟨i2, l2, he⟩ := step_look P hs hi hv hrun
  have hl : look db l.id = some (abs r (db.rot.find l.id)) := by simp [look, hr]
  rw [hl] at l2 he
  -- it suffices to compare accounts
  suffices H : ∃ v', (astep P (some (abs r (db.rot.find l.id))) l).1 = some v' ∧ v'.auth = r.auth ∧ v'.oprf = r.oprf ∧
      v'.enc = r.enc ∧ v'.zero = r.zero ∧ v'.version = r.version ∧
      (eff.resp ≠ .rotateStart .ok → eff.resp ≠ .rotateRollback .ok → v'.pending = db.rot.find l.id) by
    obtain ⟨v', hv', g⟩ := H
    rw [hv'] at l2
    unfold look at l2
    cases hf : db'.rows.find l.id with
    | none => rw [hf] at l2; simp at l2
    | some r' =>
      rw [hf] at l2
      simp only [Option.map_some, Option.some.injEq] at l2
      subst l2
      exact ⟨r', rfl, g⟩
  generalize hx : db.rot.find l.id = x at he
  cases hreq : l.req with
  | create n o a e z v => exact absurd hreq (h1 _ _ _ _ _ _)
  | remove => exact absurd hreq h3
  | restore1 b =>
    have hleft : ¬ (abs r x).left ≤ 1 := by
      intro hle
      have ht : (abs r x).left - 1 = 0 := by omega
      rw [he] at h4
      simp only [astep, hreq, ht] at h4
      cases hev : evalAll P l.id b (abs r x) <;> rw [hev] at h4 <;> simp [lastTry] at h4
    simp only [astep, hreq, if_neg hleft]
    exact ⟨_, rfl, rfl, rfl, rfl, rfl, rfl, fun _ _ => rfl⟩
  | query => exact ⟨_, by simp [astep, hreq]; rfl, rfl, rfl, rfl, rfl, rfl, fun _ _ => rfl⟩
  | unset => exact ⟨_, by simp [astep, hreq]; rfl, rfl, rfl, rfl, rfl, rfl, fun _ _ => rfl⟩
  | restore2 _ _ _ => exact ⟨_, by simp [astep, hreq]; rfl, rfl, rfl, rfl, rfl, rfl, fun _ _ => rfl⟩
  | rotateStart ver od ed =>
    cases x with
    | some p => exact ⟨_, by simp [astep, hreq, abs]; rfl, rfl, rfl, rfl, rfl, rfl, fun _ _ => rfl⟩
    | none =>
      by_cases hve : ver = r.version
      · exact ⟨_, by simp [astep, hreq, abs, hve]; rfl, rfl, rfl, rfl, rfl, rfl, fun _ _ => rfl⟩
      · refine ⟨_, by simp [astep, hreq, abs, hve]; rfl, rfl, rfl, rfl, rfl, rfl, fun hne => ?_⟩
        rw [he] at hne
        simp [astep, hreq, abs, hve] at hne
  | rotateCommit ver =>
    cases x with
    | none => exact ⟨_, by simp [astep, hreq, abs]; rfl, rfl, rfl, rfl, rfl, rfl, fun _ _ => rfl⟩
    | some p =>
      by_cases hve : p.newVersion = ver
      · rw [he] at h2; simp [astep, hreq, abs, hve] at h2
      · exact ⟨_, by simp [astep, hreq, abs, hve]; rfl, rfl, rfl, rfl, rfl, rfl, fun _ _ => rfl⟩
  | rotateRollback ver =>
    cases x with
    | none => exact ⟨_, by simp [astep, hreq, abs]; rfl, rfl, rfl, rfl, rfl, rfl, fun _ _ => rfl⟩
    | some p =>
      by_cases hve : p.newVersion = ver
      · refine ⟨_, by simp [astep, hreq, abs, hve]; rfl, rfl, rfl, rfl, rfl, rfl, fun _ hne => ?_⟩
        rw [he] at hne
        simp [astep, hreq, abs, hve] at hne
      · exact ⟨_, by simp [astep, hreq, abs, hve]; rfl, rfl, rfl, rfl, rfl, rfl, fun _ _ => rfl⟩

/-- **C13** (for row batches satisfying `Wire`): every pending rotation belongs to an existing account and
has a non-zero target, so `Hash()` never hits its `CHECK` and streaming from the start or after a 16-byte
key always succeeds. Missing: received rows whose 64-bit `new_version` is a non-zero multiple of 2^32,
see `C13_truncated_target_version`. -/
theorem C13_rotations_belong_to_accounts_partial (P : Prims4) (hs : SaddOK P) (db : DB) (h : Reach P db) :
    (∀ a x, db.rot.find a = some x → x.newVersion ≠ 0 ∧ ∃ r, db.rows.find a = some r) ∧
    (∃ d, hash P db = .ok d) ∧
    ∀ c n, (c = [] ∨ c.length = 16) → ∃ k rows, rowsAsProtos db c n = .ok (.ok (k, rows)) := by
  have hi := reach_inv hs h
  refine ⟨fun a x hx => ⟨(inv_rot hi hx).1.version_ne, (inv_rot hi hx).2⟩, ?_, ?_⟩
  · refine ⟨P.sha256 (hashInput P db), ?_⟩
    simp [DB4.hash, zipRot_all hi]
  · intro c n hc
    unfold rowsAsProtos
    rcases hc with rfl | hc
    · exact ⟨_, _, rfl⟩
    · have hne : c.isEmpty = false := by cases c <;> simp_all
      rw [hne]
      simp only [Bool.false_eq_true, if_false]
      rw [if_neg (show ¬ c.length > BACKUP_ID_SIZE by rw [hc]; decide),
        if_neg (show ¬ c.length < BACKUP_ID_SIZE by rw [hc]; decide)]
      exact ⟨_, _, rfl⟩

/-- **C13**: on replicas, which only load rows streamed by other replicas, every pending rotation belongs to
an existing account and has a non-zero target version, hashing never fails and streaming from the start or
after a 16-byte key always succeeds. -/
theorem C13_rotations_belong_to_accounts (P : Prims4) (hs : SaddOK P) (db : DB) (h : ReplicaReach P db) :
    (∀ a x, db.rot.find a = some x → x.newVersion ≠ 0 ∧ ∃ r, db.rows.find a = some r) ∧
    (∃ d, hash P db = .ok d) ∧
    ∀ c n, (c = [] ∨ c.length = 16) → ∃ k rows, rowsAsProtos db c n = .ok (.ok (k, rows)) :=
  C13_rotations_belong_to_accounts_partial P hs db (replica_reach hs h)

/-- **C05 (SVR4)**: on replicas, applying a validated entry or loading rows streamed by another replica
never reaches a `CHECK` failure or undefined behaviour, and every row keeps 1..255 tries and its sizes. -/
theorem C05_db4_never_aborts (P : Prims4) (hs : SaddOK P) (db : DB) (h : ReplicaReach P db) :
    (∀ path l, validate P l = none → ∃ q, run P path db l = .ok q) ∧
    (∀ src c n k rows, ReplicaReach P src → rowsAsProtos src c n = .ok (.ok (k, rows)) →
      ∃ q, loadRows P db (rows.map some) = .ok q) ∧
    ∀ id r, db.rows.find id = some r → Shape id r ∧ 1 ≤ r.tries.toNat ∧ r.tries.toNat ≤ 255 := by
  have hi := reach_inv hs (replica_reach hs h)
  refine ⟨?_, ?_, ?_⟩
  · intro path l hv
    obtain ⟨d, h1, _⟩ := runEvs_inv P hs [.entry path l] db hi (by
      intro e he; simp at he; subst he; exact hv)
    cases hr : run P path db l with
    | ok q => exact ⟨q, rfl⟩
    | abort => simp [runEvs, stepEv, hr] at h1
    | ub => simp [runEvs, stepEv, hr] at h1
  · intro src c n k rows hsrc he
    obtain ⟨d, h1, _⟩ := runEvs_inv P hs [.load (rows.map some)] db hi (by
      intro e he'; simp only [List.mem_singleton] at he'; subst he'
      exact emitted_wire (reach_inv hs (replica_reach hs hsrc)) he)
    cases hr : loadRows P db (rows.map some) with
    | ok q => exact ⟨q, rfl⟩
    | abort => simp [runEvs, stepEv, hr] at h1
    | ub => simp [runEvs, stepEv, hr] at h1
  · intro id r hr
    have hro := inv_row hi hr
    have h0 : r.tries.toNat ≠ 0 := fun x => hro.tries_pos (DB3.u8_eq_zero_iff.mpr x)
    have := r.tries.toNat_lt
    exact ⟨hro.shape, by omega, by omega⟩

/-- **C04 (SVR4)**: an entry for account `a` does not change what any later sequence of requests by
another account `b` observes. Any database, tampered or not. -/
theorem C04_db4_isolation (P : Prims4) (path : Bytes → Bool) (db db' : DB) (la : Log) (ra : Effect)
    (h : run P path db la = .ok (db', ra)) (b : Bytes) (hb : b ≠ la.id) (ls : List Log)
    (hls : ∀ l ∈ ls, l.id = b) :
    outcome (runAll P path db' ls) = outcome (runAll P path db ls) :=
  isolation_of_local (run P path) (·.id) get put get_put (fun s k k' o hk => get_put_ne s k k' o hk)
    (run_local P path) db db' la ra h b hb ls hls

/-- **C05 (SVR4)**, for row batches satisfying `Wire`: no history of validated entries and such batches,
whatever the integrity walk reports, reaches a `CHECK` failure or undefined behaviour, and every row keeps
1..255 tries and its field sizes. Missing: rows with a short id, see `C05_db4_short_id_ub`. -/
theorem C05_db4_never_aborts_partial (P : Prims4) (hs : SaddOK P) (es : List Ev) (hok : ∀ e ∈ es, e.ok P) :
    ∃ db, runEvs P empty es = .ok db ∧
      ∀ id r, db.rows.find id = some r → Shape id r ∧ 1 ≤ r.tries.toNat ∧ r.tries.toNat ≤ 255 := by
  obtain ⟨db, h1, h2⟩ := runEvs_inv P hs es empty (inv_empty P) hok
  refine ⟨db, h1, fun id r hr => ?_⟩
  have hro := inv_row h2 hr
  have h0 : r.tries.toNat ≠ 0 := fun x => hro.tries_pos (DB3.u8_eq_zero_iff.mpr x)
  have := r.tries.toNat_lt
  exact ⟨hro.shape, by omega, by omega⟩

/-- **C05 (SVR4)**, negation in general: a received row with a `backup_id` shorter than 16 bytes makes
`LoadRowsFromProtos` use an uninitialised key, whatever the database and the rest of the row. -/
theorem C05_db4_short_id_ub (P : Prims4) (db : DB) (x : RowPB) (rest : List (Option RowPB))
    (h1 : 1 ≤ x.tries.toNat) (h2 : x.tries.toNat ≤ 255) (h3 : x.id.length < 16) :
    loadRows P db (some x :: rest) = .ub := by
  unfold loadRows loadLoopG loadRow
  simp only
  rw [if_neg (by simp only [not_or]; exact ⟨Nat.not_lt.mpr h2, Nat.not_lt.mpr h1⟩),
    if_neg (show ¬ x.id.length > BACKUP_ID_SIZE from Nat.not_lt.mpr (Nat.le_of_lt h3)), if_pos h3]
  simp

/-- **C06 (SVR4)**: the memory of a row (and of its pending rotation) was replaced by `r`, `rr` with
different content, the hash in the integrity tree is still the one of the genuine `r0`, `rr0`. Unless the
row hash collides on the two, Restore1, RotateStart, RotateCommit and RotateRollback do not answer OK,
change nothing and release nothing. -/
theorem C06_db4_rollback_detected (P : Prims4) (path : Bytes → Bool) (db : DB) (id : Bytes) (r r0 : Row) (rr rr0 : Option Rot)
    (hr : db.rows.find id = some r) (hrr : db.rot.find id = rr)
    (h0 : RowOK P id r0 rr0) (h0' : ∀ x, rr0 = some x → RotOK P x)
    (hsh : Shape id r) (hsx : ∀ x, rr = some x → RotShape x) (hz : rr ≠ some ⟨0, zeros 32, zeros 32⟩)
    (hleaf : r.leaf = r0.leaf)
    (hdiff : (r.auth, r.oprf, r.enc, r.zero, r.version, r.tries, rr) ≠ (r0.auth, r0.oprf, r0.enc, r0.zero, r0.version, r0.tries, rr0))
    (hcoll : hashFrom (P.sip16 (rowRaw id r rr)) = hashFrom (P.sip16 (rowRaw id r0 rr0)) → rowRaw id r rr = rowRaw id r0 rr0) :
    (∀ b, restore1 P path db id b = (db, ⟨.restore1 .merkleFailure [] 0, none⟩)) ∧
    (∀ v od ed, okScalar P od = true → ed.length = 32 →
      ∃ st, st ≠ .ok ∧ rotateStart P path db id v od ed = .ok (db, ⟨.rotateStart st, none⟩)) ∧
    (∀ v, ∃ st, st ≠ .ok ∧ rotateCommit P path db id v = (db, ⟨.rotateCommit st, none⟩)) ∧
    (∀ v, ∃ st, st ≠ .ok ∧ rotateRollback P path db id v = (db, ⟨.rotateRollback st, none⟩)) := by
  have hne : verify P path id r rr = false := by
    unfold verify
    have : ctEq (hashFrom (P.sip16 (rowRaw id r rr))) r.leaf = false := by
      rw [Bool.eq_false_iff]
      intro h
      rw [ctEq_iff, hleaf, h0.leaf_eq] at h
      obtain ⟨_, e1, e2, e3, e4, e5, e6, e7⟩ := rowRaw_inj hsh h0.shape (hcoll h)
      have e8 := rotRaw_inj' hsx hz h0' e7
      exact hdiff (by rw [e1, e2, e3, e4, e5, e6, e8])
    rw [this]; rfl
  refine ⟨fun b => ?_, fun v od ed ho he => ?_, fun v => ?_, fun v => ?_⟩
  · simp [restore1, hr, hrr, hne]
  · unfold rotateStart
    simp only [hr, hrr]
    cases rr with
    | some x => exact ⟨_, by decide, rfl⟩
    | none =>
      simp only
      by_cases hve : v = r.version
      · rw [if_pos hve]; exact ⟨_, by decide, rfl⟩
      · rw [if_neg hve]
        have hle : (decide (ed.length ≤ 32)) = true := by simp [he]
        simp only [ho, hle, Out.check_true, Out.bind_ok]
        rw [if_neg (by omega)]
        simp only [hne, Bool.not_false, if_true]
        exact ⟨_, by decide, rfl⟩
  · unfold rotateCommit
    simp only [hr, hrr]
    cases rr with
    | none => exact ⟨_, by decide, rfl⟩
    | some x =>
      simp only [hne, Bool.not_false, if_true]
      split
      · exact ⟨_, by decide, rfl⟩
      · exact ⟨_, by decide, rfl⟩
  · unfold rotateRollback
    simp only [hr, hrr]
    cases rr with
    | none => exact ⟨_, by decide, rfl⟩
    | some x =>
      simp only [hne, Bool.not_false, if_true]
      split
      · exact ⟨_, by decide, rfl⟩
      · exact ⟨_, by decide, rfl⟩

/-- A gap beside C06: Create does not verify the row. With `max_tries = 0` it keeps whatever try counter
is in memory, here a rolled-back one, and installs a matching integrity hash: the tampering is no longer
detectable and the counter is accepted. -/
theorem C06_db4_create_accepts_tampered_counter (P : Prims4) (path : Bytes → Bool) (db : DB) (id : Bytes) (r : Row)
    (oprf auth enc zero : Bytes) (ver : UInt32) (hr : db.rows.find id = some r) (hl : r.enc.length = 32)
    (hv : validate P ⟨id, .create 0 oprf auth enc zero ver⟩ = none) :
    ∃ db' r', run P path db ⟨id, .create 0 oprf auth enc zero ver⟩ = .ok (db', ⟨.create .ok r.tries.toNat, none⟩) ∧
      db'.rows.find id = some r' ∧ r'.tries = r.tries ∧ verify P (fun _ => true) id r' (db'.rot.find id) = true := by
  obtain ⟨hid, _, h2, h3, h4, h5, _⟩ := (validate_iff P _).mp hv
  have hce : copyOver r.enc enc = some enc := copyOver_self h5 hl
  have e : run P path db ⟨id, .create 0 oprf auth enc zero ver⟩ =
      .ok (⟨db.rows.insert id (updateLeaf P id ⟨auth, oprf, enc, zero, ver, r.tries, r.leaf⟩ none), db.rot.erase id⟩,
        ⟨.create .ok r.tries.toNat, none⟩) := by
    unfold run
    simp only [hv, beq_self_eq_true, Out.check_true, Out.bind_ok, DB3.strToArr_self hid, create, hr]
    rw [if_neg (fun h => by cases h.1)]
    simp only [Option.getD_some, h2, h3, h4, Out.check_true, Out.bind_ok, hce, Out.pure_eq, ne_eq, not_true_eq_false,
      if_false]
  refine ⟨_, _, e, OMap.find_insert_self _ _ _, rfl, ?_⟩
  simp only [OMap.find_erase_self]
  unfold verify
  rw [Bool.and_true, ctEq_iff]
  rfl

/-- **C15 (SVR4)**: streaming a reachable database in chunks of any positive sizes (large enough in
total) into an empty one reproduces it exactly, pending rotations included. -/
theorem C15_db4_stream_reproduces (P : Prims4) (hs : SaddOK P) (db : DB) (h : Reach P db) (sizes : List Nat)
    (hpos : ∀ n ∈ sizes, 0 < n) (hsum : db.rows.size ≤ sizes.sum) :
    transfer (rowsAsProtos db) (loadRows P) empty [] sizes = .ok (db, none) := by
  have hi := reach_inv hs h
  have := transfer_ok (ρ := split) (pb := rowToPB) (joint db) (rowsAsProtos db) (loadRows P)
    (fun p hp e => by have := (joint_good hi p hp).1.id_len; rw [e] at this; simp at this)
    (fun l1 l2 n hs => rowsAsProtos_ok hi l1 l2 n hs)
    (fun m1 m2 c hm hc hsub => loadRows_emitted hm (fun p hp => joint_good hi p (hsub p (by rw [hm]; simp [hp]))))
    sizes hpos OMap.empty (joint db).list (by simp)
    (by simpa [joint, OMap.mapV, OMap.size] using hsum)
  rw [split_joint hi] at this
  exact this

/-- **C16 (SVR4)**: whatever the batch, loading into a database without orphan rotations only appends rows
with keys above all present ones, leaves present rows and their pending rotations alone, and reports
success only if every row of the batch was added with the content received (short shares are padded with
zeros, versions are narrowed to 32 bits).

Missing from the full statement: batches with an id shorter than 16 bytes, whose loading is undefined
behaviour (`C05_db4_short_id_ub`) and so does not return. -/
theorem C16_db4_load_only_appends_partial (P : Prims4) (db db' : DB) (rows : List (Option RowPB)) (res : Except Err Bytes)
    (hno : ∀ k x, db.rot.find k = some x → ∃ r, db.rows.find k = some r)
    (h : loadRows P db rows = .ok (db', res)) :
    ∃ added : List (Bytes × (Row × Option Rot)), db'.rows.list = db.rows.list ++ added.map (fun p => (p.1, p.2.1)) ∧
      (∀ p ∈ db.rows.list, ∀ q ∈ added, p.1 < q.1) ∧
      (∀ k r, db.rows.find k = some r → db'.rows.find k = some r ∧ db'.rot.find k = db.rot.find k) ∧
      (∀ p ∈ added, db'.rot.find p.1 = p.2.2) ∧
      ∀ k, res = .ok k → List.Forall₂ (fun o p => ∃ x, o = some x ∧ p.1 = x.id ∧
        p.2.1.auth = x.auth ∧ p.2.1.oprf = x.oprf ∧ p.2.1.zero = x.zero ∧ p.2.1.enc = padTo 32 x.enc ∧
        p.2.1.version = x.version.toUInt32 ∧ p.2.1.tries.toNat = x.tries.toNat ∧
        p.2.2 = if x.newVersion = 0 then none
          else some ⟨x.newVersion.toUInt32, x.oprfDelta, padTo 32 x.encDelta⟩) rows added := by
  unfold loadRows at h
  cases hl : loadLoopG (loadRow P) db rows with
  | abort => rw [hl] at h; simp at h
  | ub => rw [hl] at h; simp at h
  | ok q =>
    obtain ⟨db1, e⟩ := q
    rw [hl] at h
    simp only [Out.bind_ok] at h
    obtain ⟨c, hc, hcl, hf, hiff⟩ := loadLoopG_appendsV (loadRow P) (fun d => (joint d).list) NoOrphan
      (fun x k v => PBOK P x ∧ k = x.id ∧ v = (rowOfPB P x, rotOfPB x))
      (fun m o m' e hn => loadRow_step P m o m' e hn) rows db db1 e hno hl
    have hdb : db1 = db' := by
      cases e with
      | some e => simp at h; exact h.1
      | none =>
        simp only at h
        split at h <;> simp at h <;> exact h.1
    subst hdb
    have hrows : ∀ d : DB, (joint d).list.map (fun p => (p.1, p.2.1)) = d.rows.list := by
      intro d; simp [joint, OMap.mapV, Function.comp_def]
    have hmem : ∀ (d : DB) (p : Bytes × (Row × Option Rot)), p ∈ (joint d).list → d.rows.find p.1 = some p.2.1 ∧ p.2.2 = d.rot.find p.1 := by
      intro d p hp
      obtain ⟨k, v⟩ := p
      rw [OMap.mem_list, joint, OMap.find_mapV] at hp
      cases hf : d.rows.find k with
      | none => rw [hf] at hp; simp at hp
      | some r =>
        rw [hf] at hp
        simp only [Option.map_some, Option.some.injEq] at hp
        subst hp
        exact ⟨rfl, rfl⟩
    have hadd : db1.rows.list = db.rows.list ++ c.map (fun p => (p.1, p.2.1)) := by
      rw [← hrows db1, hc, List.map_append, hrows db]
    refine ⟨c, hadd, ?_, ?_, ?_, ?_⟩
    · intro p hp q hq
      have := db1.rows.sorted
      rw [hadd] at this
      exact (List.pairwise_append.mp this).2.2 p hp _ (List.mem_map_of_mem hq)
    · intro k r hk
      have hj : (k, (r, db.rot.find k)) ∈ (joint db1).list := by
        rw [hc]
        apply List.mem_append_left
        rw [OMap.mem_list, joint, OMap.find_mapV, hk]; rfl
      exact ⟨(hmem db1 _ hj).1, (hmem db1 _ hj).2.symm⟩
    · intro p hp
      exact (hmem db1 p (by rw [hc]; exact List.mem_append_right _ hp)).2.symm
    · intro k hk
      subst hk
      have he : e = none := by
        cases e with
        | some e => simp at h
        | none => rfl
      have hlen' := hiff.mp he
      rw [hlen', List.take_length] at hf
      refine hf.imp ?_
      rintro o ⟨k, v⟩ ⟨x, hx, hok, hk, hv⟩
      simp only at hv hk
      subst hv
      exact ⟨x, hx, hk, rfl, rfl, rfl, rfl, rfl, DB2.u32_toUInt8_toNat hok.tries_le, rfl⟩

/-- **C17 (SVR4)**: reachable databases with the same `Hash()` are equal, pending rotations included, if
SHA-256 does not collide on the two inputs and the row hash does not collide between their rows. -/
theorem C17_db4_hash_identifies (P : Prims4) (hs : SaddOK P) (db1 db2 : DB) (h1 : Reach P db1) (h2 : Reach P db2)
    (hlen : ∀ x, (P.sip16 x).length = 16) (hh : hash P db1 = hash P db2)
    (hsha : P.sha256 (hashInput P db1) = P.sha256 (hashInput P db2) → hashInput P db1 = hashInput P db2)
    (hsip : ∀ a r b q, db1.rows.find a = some r → db2.rows.find b = some q →
      P.sip16 (rowRaw a r (db1.rot.find a)) = P.sip16 (rowRaw b q (db2.rot.find b)) →
      rowRaw a r (db1.rot.find a) = rowRaw b q (db2.rot.find b)) :
    db1 = db2 := by
  have i1 := reach_inv hs h1
  have i2 := reach_inv hs h2
  have hh' : P.sha256 (hashInput P db1) = P.sha256 (hashInput P db2) := by
    simpa [DB4.hash, zipRot_all i1, zipRot_all i2] using hh
  have hb := (List.append_inj (hsha hh') (by simp)).2
  rw [zipRot_all i1, zipRot_all i2] at hb
  have hmem : ∀ (d : DB) (p : Bytes × (Row × Option Rot)), p ∈ (joint d).list → d.rows.find p.1 = some p.2.1 ∧ p.2.2 = d.rot.find p.1 := by
    intro d p hp
    obtain ⟨k, v⟩ := p
    rw [OMap.mem_list, joint, OMap.find_mapV] at hp
    cases hf : d.rows.find k with
    | none => rw [hf] at hp; simp at hp
    | some r =>
      rw [hf] at hp
      simp only [Option.map_some, Option.some.injEq] at hp
      subst hp
      exact ⟨rfl, rfl⟩
  have hj : joint db1 = joint db2 := by
    apply OMap.ext
    apply rows_eq_of_map (P := P) _ _ (joint_good i1) (joint_good i2)
    · intro p hp q hq
      obtain ⟨a1, a2⟩ := hmem db1 p hp
      obtain ⟨b1, b2⟩ := hmem db2 q hq
      rw [a2, b2]
      exact hsip _ _ _ _ a1 b1
    · exact flatMap_blocks_inj (by omega) (fun _ => hlen _) (fun _ => hlen _) _ _ hb
  rw [← split_joint i1, ← split_joint i2, hj]

/-- **C18 (SVR4)**: in a reachable database and with an intact tree, the integrity check of every row
succeeds and no validated entry is answered MERKLE_FAILURE. -/
theorem C18_db4_no_false_alarm (P : Prims4) (hs : SaddOK P) (db : DB) (h : Reach P db) :
    (∀ id r, db.rows.find id = some r → verify P (fun _ => true) id r (db.rot.find id) = true) ∧
    ∀ l db' eff, validate P l = none → run P (fun _ => true) db l = .ok (db', eff) →
      (∀ es t, eff.resp ≠ .restore1 .merkleFailure es t) ∧ eff.resp ≠ .rotateStart .merkleFailure ∧
      eff.resp ≠ .rotateCommit .merkleFailure ∧ eff.resp ≠ .rotateRollback .merkleFailure := by
  have hi := reach_inv hs h
  refine ⟨fun id r hr => verify_ok (inv_row hi hr) _, ?_⟩
  intro l db' eff hv hrun
  obtain ⟨_, _, he⟩ := step_look P hs hi hv hrun
  subst he
  generalize look db l.id = o
  cases hr : l.req with
  | create n a b c d e => cases o <;> simp only [astep, hr] <;> (try split) <;> simp
  | restore1 b =>
    cases o with
    | none => simp [astep, hr]
    | some v => cases he : evalAll P l.id b v <;> simp [astep, hr, he]
  | remove => simp [astep, hr]
  | query => cases o <;> simp [astep, hr]
  | unset => simp [astep, hr]
  | restore2 _ _ _ => simp [astep, hr]
  | rotateStart v od ed =>
    cases o with
    | none => simp [astep, hr]
    | some w =>
      cases hp : w.pending with
      | some p => simp [astep, hr, hp]
      | none => by_cases hve : v = w.version <;> simp [astep, hr, hp, hve]
  | rotateCommit v =>
    cases o with
    | none => simp [astep, hr]
    | some w =>
      cases hp : w.pending with
      | none => simp [astep, hr, hp]
      | some p => by_cases hve : p.newVersion = v <;> simp [astep, hr, hp, hve]
  | rotateRollback v =>
    cases o with
    | none => simp [astep, hr]
    | some w =>
      cases hp : w.pending with
      | none => simp [astep, hr, hp]
      | some p => by_cases hve : p.newVersion = v <;> simp [astep, hr, hp, hve]

/-! ### Witnesses and non-vacuity -/
section Examples
def ida : Bytes := List.replicate 16 1
def idb : Bytes := List.replicate 16 2
def elt : Bytes := List.replicate 32 5
def sc1 : Bytes := List.replicate 32 9
def sc2 : Bytes := List.replicate 32 3
def sc3 : Bytes := List.replicate 32 6
/-- Toy group: points and scalars are 32 bytes, addition is xor, multiplication is `and`. -/
def P0 : Prims4 :=
  { sip16 := fun b => padTo 16 (b.drop 143 |>.take 8), sha256 := fun b => b,
    validPoint := fun b => b != List.replicate 32 255, validScalar := fun _ => true, sadd := List.zipWith (· ^^^ ·),
    smul := fun a b => some (List.zipWith (· &&& ·) a b), padd := fun a b => some (List.zipWith (· ^^^ ·) a b),
    mulBase := fun a => some a, hashToPoint := fun _ b => some b, challenge := fun _ b _ => b }
theorem P0_add : SaddOK P0 := by
  intro a b ha hb
  simp [okScalar, P0] at ha hb ⊢
  omega
def mk (n : UInt32) : Req := .create n sc1 elt sc2 sc3 7
def hist : List Log := [⟨ida, .restore1 elt⟩, ⟨ida, .rotateStart 8 sc2 sc1⟩, ⟨idb, mk 3⟩, ⟨ida, .restore1 sc1⟩,
    ⟨ida, .rotateCommit 8⟩, ⟨ida, mk 0⟩, ⟨ida, .restore1 elt⟩, ⟨ida, .restore1 elt⟩, ⟨ida, .query⟩]
example : OneCreate P0 ida 3 ⟨ida, mk 3⟩ [⟨idb, .query⟩] hist :=
  ⟨by decide, rfl, ⟨_, _, _, _, _, rfl⟩, by decide, by decide⟩
example : (match runAll P0 intact empty (⟨ida, mk 3⟩ :: hist) with
  | .ok (_, rs) => evalTries rs | _ => []) = [2, 1, 0] := by decide

/-- An account with a pending rotation to version 8. -/
def rotating : DB := match runAll P0 intact empty [⟨ida, mk 3⟩, ⟨ida, .rotateStart 8 sc2 sc1⟩] with
  | .ok (db, _) => db | _ => empty
def plain : DB := match runAll P0 intact empty [⟨ida, mk 3⟩] with
  | .ok (db, _) => db | _ => empty
theorem plain_reach : Reach P0 plain := by
  refine ⟨[.entry intact ⟨ida, mk 3⟩], ?_, by decide⟩
  intro e he
  simp only [List.mem_cons, List.not_mem_nil, or_false] at he
  subst he
  show validate P0 _ = none; decide
theorem rotating_reach : Reach P0 rotating := by
  refine ⟨[.entry intact ⟨ida, mk 3⟩, .entry intact ⟨ida, .rotateStart 8 sc2 sc1⟩], ?_, by decide⟩
  intro e he
  simp only [List.mem_cons, List.not_mem_nil, or_false] at he
  rcases he with rfl | rfl <;> (show validate P0 _ = none; decide)
/-- Hypotheses of the three C12 transition theorems hold together. -/
example : ∃ db' es st, run P0 intact plain ⟨ida, .rotateStart 8 sc2 sc1⟩ = .ok (db', ⟨.rotateStart .ok, none⟩) ∧
    restore1OK P0 db' ida elt es st ∧ es.length = 2 := ⟨rotating, _, _, by decide, ⟨2, rfl⟩, by decide⟩
example : ∃ db' es st, run P0 intact rotating ⟨ida, .rotateCommit 8⟩ = .ok (db', ⟨.rotateCommit .ok, none⟩) ∧
    restore1OK P0 rotating ida elt es st ∧ st.enc ≠ st.newEnc := by
  refine ⟨_, _, _, rfl, ⟨2, rfl⟩, by decide⟩
example : ∃ db', run P0 intact rotating ⟨ida, .rotateRollback 8⟩ = .ok (db', ⟨.rotateRollback .ok, none⟩) := ⟨_, rfl⟩
/-- A replica that loaded the rows of another one. -/
example : ReplicaReach P0 rotating ∧ ∃ k rows db', rowsAsProtos rotating [] 5 = .ok (.ok (k, rows)) ∧ rows.length = 1 ∧
    loadRows P0 empty (rows.map some) = .ok (db', .ok k) ∧ ReplicaReach P0 db' ∧ db' = rotating := by
  have h : ReplicaReach P0 rotating :=
    .entry (path := intact) (l := ⟨ida, .rotateStart 8 sc2 sc1⟩) (eff := ⟨.rotateStart .ok, none⟩)
      (.entry (path := intact) (l := ⟨ida, mk 3⟩) (eff := ⟨.create .ok 3, none⟩) .empty (by decide) rfl) (by decide) rfl
  have e1 : rowsAsProtos rotating [] 5 = .ok (.ok (ida, [⟨ida, 3, sc1, elt, sc2, sc3, sc2, sc1, 7, 8⟩])) := rfl
  have e2 : loadRows P0 empty ([⟨ida, 3, sc1, elt, sc2, sc3, sc2, sc1, 7, 8⟩].map some) = .ok (rotating, .ok ida) := rfl
  exact ⟨h, _, _, _, e1, rfl, e2, .load .empty h e1 e2, rfl⟩
/-- A session, a Restore1 effect, and a Restore2 with a valid proof for the old and for the new version. -/
def eff1 : Effect := (restore1 P0 intact rotating ida elt).2
def fresh : Session := ⟨ida, [1, 2], none⟩
def pt (sc : Bytes) : Bytes := List.zipWith (· ^^^ ·) sc elt
example : (stepS P0 (stepS P0 fresh (.effect eff1)).1 (.request (.restore2 (pt sc1) sc1 7))).2 =
    some (.restore2 .ok sc2) := by decide
example : (stepS P0 (stepS P0 fresh (.effect eff1)).1 (.request (.restore2 (pt sc1) sc1 8))).2 =
    some (.restore2 .ok (xorB sc2 sc1)) := by decide
example : (stepS P0 (stepS P0 fresh (.effect eff1)).1 (.request (.restore2 (pt sc1) sc2 8))).2 =
    some (.restore2 .error []) := by decide

/-- **C11**, the missing case: without a pending rotation, Restore2 asking for version 0 (no share has that
version) is answered OK, with an empty share. -/
theorem C11_version_zero_empty_share :
    Reach P0 plain ∧ run P0 intact plain ⟨ida, .restore1 elt⟩ = .ok (restore1 P0 intact plain ida elt) ∧
    (stepS P0 (stepS P0 fresh (.effect (restore1 P0 intact plain ida elt).2)).1
      (.request (.restore2 (pt sc1) sc1 0))).2 = some (.restore2 .ok []) :=
  ⟨plain_reach, by decide, by decide⟩

/-- **C13**, negation in general: a received row with `new_version = 2^32` creates a pending rotation with
target version 0. -/
theorem C13_truncated_target_version :
    ∃ db', loadRows P0 empty [some ⟨ida, 3, sc1, elt, sc2, sc3, sc1, sc2, 7, 4294967296⟩] = .ok (db', .ok ida) ∧
      db'.rot.find ida = some ⟨0, sc1, sc2⟩ := ⟨_, rfl, by decide⟩
/-- ... and with zero deltas the rotation is not covered by the row hash: removing it from memory goes
unnoticed. -/
theorem C13_zero_rotation_not_hashed (id : Bytes) (r : Row) :
    rowRaw id r (some ⟨0, zeros 32, zeros 32⟩) = rowRaw id r none := by
  simp only [rowRaw, rotRaw]
  have : be32 ((0 : UInt32).toNat) ++ zeros 32 ++ zeros 32 = zeros 68 := by decide
  rw [this]

/-- Rolled-back counter: genuine row with one try left, memory says two. -/
example : ∃ r r0 : Row, RowOK P0 ida r0 none ∧ Shape ida r ∧ r.leaf = r0.leaf ∧ r.tries ≠ r0.tries ∧
    hashFrom (P0.sip16 (rowRaw ida r none)) ≠ hashFrom (P0.sip16 (rowRaw ida r0 none)) := by
  let r0 : Row := updateLeaf P0 ida ⟨elt, sc1, sc2, sc3, 7, 1, []⟩ none
  have h0 : RowOK P0 ida r0 none := updateLeaf_ok P0 (by decide) (by decide) (by decide) (by decide) (by decide) (by decide)
  have h2 : RowOK P0 ida (updateLeaf P0 ida ⟨elt, sc1, sc2, sc3, 7, 2, []⟩ none) none :=
    updateLeaf_ok P0 (by decide) (by decide) (by decide) (by decide) (by decide) (by decide)
  have hs := h2.shape
  exact ⟨{ r0 with tries := 2 }, r0, h0, ⟨hs.1, hs.2, hs.3, hs.4, hs.5⟩, rfl, by decide, by decide⟩

def evs : List Ev := [.entry (fun _ => true) ⟨ida, mk 3⟩,
  .load [some ⟨idb, 3, sc1, elt, sc2, sc3, sc1, sc2, 7, 8⟩], .entry (fun _ => false) ⟨ida, .rotateStart 9 sc1 sc1⟩, .load []]
example : ∀ e ∈ evs, e.ok P0 := by
  intro e he
  simp only [evs, List.mem_cons, List.not_mem_nil, or_false] at he
  rcases he with rfl | rfl | rfl | rfl
  · show validate P0 _ = none; decide
  · intro o ho x hx
    simp only [List.mem_cons, List.not_mem_nil, or_false] at ho
    subst ho
    cases hx
    decide
  · show validate P0 _ = none; decide
  · intro o ho; simp at ho
example : (match runEvs P0 empty evs with | .ok db => (db.rows.size, db.rot.size) | _ => (0, 0)) = (2, 1) := by decide
end Examples

end Svr.Props.DB4
