import Verif.Props.Secret
import Verif.Props.DB4
import Verif.Session4

/-!
# C85: an encryption share of SVR4 leaves in an answered Restore2 only

The game of `Props.Secret` over a database of SVR4 and any number of client sessions. Entries are applied and their effects handed to sessions in any
order, and requests reach sessions in any order; all of that is chosen by someone who sees every answer. Hidden are the encryption shares in
the owner's Creates, the share's deltas in the owner's RotateStarts, and the share in answers to the owner's Restore2.
-/

namespace Svr.Props.Shares
open Svr Svr.DB4 Svr.Spec4 Svr.Props.Secret
open Svr.DB3 (strToArr_self)

variable {P : Prims4} {a : Bytes}

/-! ## One entry, with any outcome of the integrity walk -/

/-- The answer if the walk fails, for requests that come to it. -/
def refused : Svr.DB4.Resp → Option Svr.DB4.Resp
  | .restore1 .missing _ _ => none
  | .restore1 _ _ _ => some (.restore1 .merkleFailure [] 0)
  | .rotateStart .ok => some (.rotateStart .merkleFailure)
  | .rotateCommit .ok => some (.rotateCommit .merkleFailure)
  | .rotateRollback .ok => some (.rotateRollback .merkleFailure)
  | _ => none

/-- One entry against one account; `ok` is the outcome of the walk, where there is one. -/
def pstep4 (P : Prims4) (ok : Bool) (o : Option Acct) (l : Svr.DB4.Log) : Option Acct × Effect :=
  if ok then astep P o l
  else match refused (astep P o l).2.resp with
    | some r => (o, ⟨r, none⟩)
    | none => astep P o l

/-- Every check fails: what is answered, and when. -/
theorem refuse4 (path : Bytes → Bool) {d d' : Svr.DB4.DB} {l : Svr.DB4.Log} {e : Effect} (hi : Svr.DB4.Inv P d) (hv : Svr.DB4.validate P l = none)
    (hp : path l.id = false) (h : Svr.DB4.run P path d l = .ok (d', e)) :
    refused (astep P (Svr.DB4.look d l.id) l).2.resp = none ∧ merkleFail e.resp = false ∨
      refused (astep P (Svr.DB4.look d l.id) l).2.resp = some e.resp ∧ merkleFail e.resp = true := by
  have hv' := (Svr.DB4.validate_iff P l).mp hv
  obtain ⟨id, req⟩ := l
  simp only at hv' hp
  unfold Svr.DB4.run at h
  simp only [hv, beq_self_eq_true, Out.check_true, Out.bind_ok, strToArr_self hv'.1] at h
  cases req with
  | create n oprf auth enc zero version =>
    left
    refine ⟨?_, ?_⟩
    · cases Svr.DB4.look d id with
      | none =>
        simp only [astep]
        split <;> rfl
      | some x => rfl
    · simp only [create] at h
      split at h
      · simp only [Out.pure_eq] at h
        cases h
        rfl
      · obtain ⟨_, _, h⟩ := Out.bind_eq_ok.mp h
        obtain ⟨_, _, h⟩ := Out.bind_eq_ok.mp h
        obtain ⟨_, _, h⟩ := Out.bind_eq_ok.mp h
        split at h
        · cases h
        · cases h
          rfl
  | restore1 b =>
    simp only [restore1, Out.pure_eq] at h
    cases hf : d.rows.find id with
    | none =>
      rw [hf] at h
      cases h
      exact .inl ⟨by simp [Svr.DB4.look, hf, astep, refused], rfl⟩
    | some r =>
      have hr := inv_row hi hf
      simp only [hf, verify_ok hr, hp, Bool.not_false, if_true] at h
      cases h
      refine .inr ⟨?_, rfl⟩
      simp only [Svr.DB4.look, hf, Option.map_some, astep]
      cases evalAll P id b _ <;> rfl
  | remove =>
    refine .inl ⟨rfl, ?_⟩
    simp only [remove, Out.pure_eq] at h
    cases hf : d.rows.find id <;> rw [hf] at h <;> cases h <;> rfl
  | query =>
    refine .inl ⟨by cases Svr.DB4.look d id <;> rfl, ?_⟩
    simp only [query, Out.pure_eq] at h
    cases hf : d.rows.find id <;> rw [hf] at h <;> cases h <;> rfl
  | rotateStart ver od ed =>
    obtain ⟨_, h1, h2, h3⟩ := hv'
    simp only [rotateStart] at h
    cases hf : d.rows.find id with
    | none =>
      rw [hf] at h
      cases h
      exact .inl ⟨by simp [Svr.DB4.look, hf, astep, refused], rfl⟩
    | some r =>
      have hr := inv_row hi hf
      cases hx : d.rot.find id with
      | some x =>
        simp only [hf, hx, Out.pure_eq] at h
        cases h
        exact .inl ⟨by simp [Svr.DB4.look, hf, hx, astep, refused, abs], rfl⟩
      | none =>
        rw [hx] at hr
        simp only [hf, hx] at h
        by_cases hve : ver = r.version
        · rw [if_pos hve] at h
          cases h
          exact .inl ⟨by simp [Svr.DB4.look, hf, hx, astep, refused, abs, hve], rfl⟩
        · have hle : (decide (ed.length ≤ 32)) = true := by simp [h3]
          rw [if_neg hve] at h
          simp only [h2, hle, Out.check_true, Out.bind_ok] at h
          rw [if_neg (by omega)] at h
          simp only [verify_ok hr, hp, Bool.not_false, if_true] at h
          cases h
          exact .inr ⟨by simp [Svr.DB4.look, hf, hx, astep, refused, abs, hve], rfl⟩
  | rotateCommit ver =>
    simp only [rotateCommit, Out.pure_eq] at h
    cases hf : d.rows.find id with
    | none =>
      rw [hf] at h
      cases h
      exact .inl ⟨by simp [Svr.DB4.look, hf, astep, refused], rfl⟩
    | some r =>
      have hr := inv_row hi hf
      cases hx : d.rot.find id with
      | none =>
        simp only [hf, hx] at h
        cases h
        exact .inl ⟨by simp [Svr.DB4.look, hf, hx, astep, refused, abs], rfl⟩
      | some x =>
        rw [hx] at hr
        simp only [hf, hx] at h
        by_cases hve : x.newVersion = ver
        · rw [if_neg (by simpa using hve)] at h
          simp only [verify_ok hr, hp, Bool.not_false, if_true] at h
          cases h
          exact .inr ⟨by simp [Svr.DB4.look, hf, hx, astep, refused, abs, hve], rfl⟩
        · rw [if_pos hve] at h
          cases h
          exact .inl ⟨by simp [Svr.DB4.look, hf, hx, astep, refused, abs, hve], rfl⟩
  | rotateRollback ver =>
    simp only [rotateRollback, Out.pure_eq] at h
    cases hf : d.rows.find id with
    | none =>
      rw [hf] at h
      cases h
      exact .inl ⟨by simp [Svr.DB4.look, hf, astep, refused], rfl⟩
    | some r =>
      have hr := inv_row hi hf
      cases hx : d.rot.find id with
      | none =>
        simp only [hf, hx] at h
        cases h
        exact .inl ⟨by simp [Svr.DB4.look, hf, hx, astep, refused, abs], rfl⟩
      | some x =>
        rw [hx] at hr
        simp only [hf, hx] at h
        by_cases hve : x.newVersion = ver
        · rw [if_neg (by simpa using hve)] at h
          simp only [verify_ok hr, hp, Bool.not_false, if_true] at h
          cases h
          exact .inr ⟨by simp [Svr.DB4.look, hf, hx, astep, refused, abs, hve], rfl⟩
        · rw [if_pos hve] at h
          cases h
          exact .inl ⟨by simp [Svr.DB4.look, hf, hx, astep, refused, abs, hve], rfl⟩
  | restore2 _ _ _ => exact hv'.2.elim
  | unset => exact hv'.2.elim

theorem astep_keeps {o : Option Acct} {l : Svr.DB4.Log} (h : merkleFail (astep P o l).2.resp = true) : False := by
  obtain ⟨id, req⟩ := l
  cases req <;> cases o <;> simp only [astep] at h
  all_goals first | (cases h; done) | skip
  all_goals (repeat' split at h) <;> cases h

theorem view4 (hs : SaddOK P) (path : Bytes → Bool) {d : Svr.DB4.DB} {l : Svr.DB4.Log} (hi : Svr.DB4.Inv P d) (hv : Svr.DB4.validate P l = none) :
    ∃ d', Svr.DB4.run P path d l = .ok (d', (pstep4 P (path l.id) (Svr.DB4.look d l.id) l).2) ∧ Svr.DB4.Inv P d' ∧
      Svr.DB4.look d' l.id = (pstep4 P (path l.id) (Svr.DB4.look d l.id) l).1 ∧ ∀ k, k ≠ l.id → Svr.DB4.look d' k = Svr.DB4.look d k := by
  obtain ⟨d', e, h1, h2, h3, h4⟩ := Svr.DB4.run_cases P hs path d l hi hv
  have hothers : ∀ k, k ≠ l.id → Svr.DB4.look d' k = Svr.DB4.look d k := by
    intro k hk
    have := h3 k hk
    simp only [Svr.DB4.look, this.1, this.2]
  suffices hw : e = (pstep4 P (path l.id) (Svr.DB4.look d l.id) l).2 ∧ Svr.DB4.look d' l.id = (pstep4 P (path l.id) (Svr.DB4.look d l.id) l).1 by
    exact ⟨d', by rw [h1, hw.1], h2, hw.2, hothers⟩
  cases hp : path l.id with
  | true =>
    rcases h4 with h4 | ⟨h4, _⟩
    · exact h4
    · rw [hp] at h4; cases h4
  | false =>
    unfold pstep4
    rcases refuse4 path hi hv hp h1 with ⟨k1, k2⟩ | ⟨k1, k2⟩
    · rcases h4 with h4 | ⟨_, _, h5, _⟩
      · simp only [k1, Bool.false_eq_true, if_false]
        exact h4
      · rw [k2] at h5; cases h5
    · rcases h4 with ⟨h4, _⟩ | ⟨_, h5, _, h6⟩
      · rw [h4] at k2
        exact (astep_keeps k2).elim
      · simp only [k1, Bool.false_eq_true, if_false]
        obtain ⟨r, x⟩ := e
        simp only at h6
        subst h6
        exact ⟨rfl, by rw [h5]⟩

/-! ## What is not hidden -/

/-- An account without its share and the share's delta. -/
def bare (x : Acct) : Acct := { x with enc := [], pending := x.pending.map fun p => { p with encDelta := [] } }

def bareState (x : R2State) : R2State := { x with enc := [], newEnc := [] }

def bareLog (l : Svr.DB4.Log) : Svr.DB4.Log := { l with req := match l.req with
  | .create n oprf auth _ zero version => .create n oprf auth [] zero version
  | .rotateStart version od _ => .rotateStart version od []
  | q => q }

theorem bare_evalAll (id b : Bytes) (x : Acct) : evalAll P id b (bare x) = evalAll P id b x := by
  obtain ⟨au, op, en, ze, ve, le, pe⟩ := x
  cases pe <;> rfl

theorem bare_session (x : Acct) (b : Bytes) : bareState (session (bare x) b) = bareState (session x b) := by
  obtain ⟨au, op, en, ze, ve, le, pe⟩ := x
  cases pe <;> rfl

theorem bare_twice (x : Acct) : bare (bare x) = bare x := by
  obtain ⟨au, op, en, ze, ve, le, pe⟩ := x
  cases pe <;> rfl

/-- Nothing but the hidden parts depends on the hidden parts. -/
theorem bare_astep (o : Option Acct) (l : Svr.DB4.Log) :
    (astep P (o.map bare) (bareLog l)).1.map bare = (astep P o l).1.map bare ∧ (astep P (o.map bare) (bareLog l)).2.resp = (astep P o l).2.resp ∧
      (astep P (o.map bare) (bareLog l)).2.r2.map bareState = (astep P o l).2.r2.map bareState := by
  obtain ⟨id, req⟩ := l
  cases req with
  | create n oprf auth enc zero version =>
    cases o with
    | none =>
      simp only [bareLog, astep, Option.map_none]
      by_cases hn : n = 0
      · simp [hn]
      · simp [hn, bare]
    | some x => exact ⟨rfl, rfl, rfl⟩
  | restore1 b =>
    cases o with
    | none => exact ⟨rfl, rfl, rfl⟩
    | some x =>
      simp only [bareLog, astep, Option.map_some, bare_evalAll]
      have e1 : (bare x).left = x.left := rfl
      rw [e1]
      refine ⟨?_, ?_, ?_⟩
      · by_cases hl : x.left ≤ 1
        · simp [hl]
        · rw [if_neg hl, if_neg hl]
          obtain ⟨au, op, en, ze, ve, le, pe⟩ := x
          cases pe <;> rfl
      · cases evalAll P id b x <;> rfl
      · cases evalAll P id b x with
        | none => rfl
        | some es => exact congrArg some (bare_session x b)
  | remove => exact ⟨rfl, rfl, rfl⟩
  | query =>
    cases o with
    | none => exact ⟨rfl, rfl, rfl⟩
    | some x =>
      obtain ⟨au, op, en, ze, ve, le, pe⟩ := x
      cases pe <;> exact ⟨rfl, rfl, rfl⟩
  | rotateStart ver od ed =>
    cases o with
    | none => exact ⟨rfl, rfl, rfl⟩
    | some x =>
      obtain ⟨au, op, en, ze, ve, le, pe⟩ := x
      cases pe with
      | some p => exact ⟨rfl, rfl, rfl⟩
      | none =>
        simp only [bareLog, astep, Option.map_some, bare, Option.map_none]
        by_cases h : ver = ve <;> simp [h, bare]
  | rotateCommit ver =>
    cases o with
    | none => exact ⟨rfl, rfl, rfl⟩
    | some x =>
      obtain ⟨au, op, en, ze, ve, le, pe⟩ := x
      cases pe with
      | none => exact ⟨rfl, rfl, rfl⟩
      | some p =>
        simp only [bareLog, astep, Option.map_some, bare]
        by_cases h : p.newVersion = ver <;> simp [h, bare, rotated]
  | rotateRollback ver =>
    cases o with
    | none => exact ⟨rfl, rfl, rfl⟩
    | some x =>
      obtain ⟨au, op, en, ze, ve, le, pe⟩ := x
      cases pe with
      | none => exact ⟨rfl, rfl, rfl⟩
      | some p =>
        simp only [bareLog, astep, Option.map_some, bare]
        by_cases h : p.newVersion = ver <;> simp [h, bare]
  | restore2 _ _ _ => exact ⟨by cases o <;> simp [astep, bareLog, bare_twice], by cases o <;> rfl, by cases o <;> rfl⟩
  | unset => exact ⟨by cases o <;> simp [astep, bareLog, bare_twice], by cases o <;> rfl, by cases o <;> rfl⟩

theorem bare_pstep (ok : Bool) (o : Option Acct) (l : Svr.DB4.Log) :
    (pstep4 P ok (o.map bare) (bareLog l)).1.map bare = (pstep4 P ok o l).1.map bare ∧ (pstep4 P ok (o.map bare) (bareLog l)).2.resp = (pstep4 P ok o l).2.resp ∧
      (pstep4 P ok (o.map bare) (bareLog l)).2.r2.map bareState = (pstep4 P ok o l).2.r2.map bareState := by
  have h := bare_astep (P := P) o l
  unfold pstep4
  cases ok with
  | true => exact h
  | false =>
    simp only [Bool.false_eq_true, if_false, h.2.1]
    cases refused (astep P o l).2.resp with
    | none => exact h
    | some r =>
      refine ⟨?_, rfl, rfl⟩
      cases o with
      | none => rfl
      | some x => exact congrArg some (bare_twice x)

/-- Two runs of one entry on accounts that differ in hidden parts. -/
theorem bare_two (ok : Bool) {o o' : Option Acct} {l l' : Svr.DB4.Log} (ho : o.map bare = o'.map bare) (hl : bareLog l = bareLog l') :
    (pstep4 P ok o l).1.map bare = (pstep4 P ok o' l').1.map bare ∧ (pstep4 P ok o l).2.resp = (pstep4 P ok o' l').2.resp ∧
      (pstep4 P ok o l).2.r2.map bareState = (pstep4 P ok o' l').2.r2.map bareState := by
  have h := bare_pstep (P := P) ok o l
  have h' := bare_pstep (P := P) ok o' l'
  rw [ho, hl] at h
  exact ⟨h.1.symm.trans h'.1, h.2.1.symm.trans h'.2.1, h.2.2.symm.trans h'.2.2⟩

/-! ## The game -/

/-- A database and the sessions of any number of clients. -/
abbrev State4 := Svr.DB4.DB × (Nat → Session)

/-- What is done: an entry is applied and its effect handed to session `i`, or a request reaches session `i`. -/
inductive Do where
  | entry (i : Nat) (l : Svr.DB4.Log)
  | ask (i : Nat) (q : Svr.DB4.Req)

def put4 (ss : Nat → Session) (i : Nat) (s : Session) : Nat → Session := fun j => if j = i then s else ss j

/-- One step; the answer goes to the client of session `i`. -/
def run4 (P : Prims4) (path : Bytes → Bool) (w : State4) : Do → Out (State4 × Option Svr.DB4.Resp)
  | .entry i l => do
    let (d, e) ← Svr.DB4.run P path w.1 l
    pure ((d, put4 w.2 i (stepS P (w.2 i) (.effect e)).1), (stepS P (w.2 i) (.effect e)).2)
  | .ask i q => pure ((w.1, put4 w.2 i (stepS P (w.2 i) (.request q)).1), (stepS P (w.2 i) (.request q)).2)

/-- The owner's Create, RotateStart and Restore2 for the account, and all that others do. -/
inductive Act4 where
  | create (i k : Nat) (n : UInt32) (oprf auth zero : Bytes) (version : UInt32)
  | rotate (i k : Nat) (version : UInt32) (od : Bytes)
  | restore2 (i : Nat) (ap sc : Bytes) (version : UInt32)
  | other (x : Do)

/-- `v` are the hidden shares and deltas. -/
def fill4 (a : Bytes) (v : Nat → Bytes) : Act4 → Do
  | .create i k n oprf auth zero version => .entry i ⟨a, .create n oprf auth (v k) zero version⟩
  | .rotate i k version od => .entry i ⟨a, .rotateStart version od (v k)⟩
  | .restore2 i ap sc version => .ask i (.restore2 ap sc version)
  | .other x => x

def seen4 (_ : State4) (_ : Bytes → Bool) (t : Act4) (r : Option Svr.DB4.Resp) : Option Svr.DB4.Resp :=
  match t, r with
  | .restore2 _ _ _ _, some (.restore2 s _) => some (.restore2 s [])
  | _, r => r

/-- Where hidden things are, as far as can be told from what was seen: in the account, and in sessions. -/
structure Marks where
  account : Bool
  session : Nat → Bool

/-- The account holds something hidden after an owner's Create or RotateStart answered OK and until a Create of others answered OK; a session after a
Restore1 answered OK while the account does, and until the session's next one. -/
def mark (a : Bytes) (m : Marks) (x : Act4 × Option Svr.DB4.Resp) : Marks :=
  match x.1, x.2 with
  | .create _ _ _ _ _ _ _, some (.create .ok _) => { m with account := true }
  | .rotate _ _ _ _, some (.rotateStart .ok) => { m with account := true }
  | .other (.entry _ ⟨id, .create _ _ _ _ _ _⟩), some (.create .ok _) => if id = a then { m with account := false } else m
  | .other (.entry i ⟨id, _⟩), some (.restore1 .ok _ _) => { m with session := fun j => if j = i then m.account && decide (id = a) else m.session j }
  | _, _ => m

def marks (a : Bytes) (m : Marks) (o : List (Act4 × Option Svr.DB4.Resp)) : Marks := o.foldl (mark a) m

/-- Others get no answer with a share out of a session that holds a hidden one. -/
def Shut (m : Marks) : Act4 → Option Svr.DB4.Resp → Prop
  | .other (.ask i (.restore2 _ _ _)), r => m.session i = true → ∀ x, r ≠ some (.restore2 .ok x)
  | _, _ => True

structure Alike4 (P : Prims4) (a : Bytes) (m : Marks) (w w' : State4) : Prop where
  inv : Svr.DB4.Inv P w.1
  inv' : Svr.DB4.Inv P w'.1
  others : ∀ id, id ≠ a → Svr.DB4.look w.1 id = Svr.DB4.look w'.1 id
  account : (Svr.DB4.look w.1 a).map bare = (Svr.DB4.look w'.1 a).map bare
  clear : m.account = false → Svr.DB4.look w.1 a = Svr.DB4.look w'.1 a
  session : ∀ i, (w.2 i).id = (w'.2 i).id ∧ (w.2 i).handshake = (w'.2 i).handshake ∧
    (w.2 i).restore2.map bareState = (w'.2 i).restore2.map bareState ∧ (m.session i = false → w.2 i = w'.2 i)

theorem restore2_two {ap sc hh : Bytes} {ver : UInt32} {st st' : R2State} (h : bareState st = bareState st') :
    ∃ s x x', restore2 P ap sc ver st hh = .restore2 s x ∧ restore2 P ap sc ver st' hh = .restore2 s x' ∧ (s ≠ .ok → x = x') := by
  have h1 : st.auth = st'.auth := show (bareState st).auth = (bareState st').auth by rw [h]
  have h2 : st.version = st'.version := show (bareState st).version = (bareState st').version by rw [h]
  have h3 : st.newVersion = st'.newVersion := show (bareState st).newVersion = (bareState st').newVersion by rw [h]
  have h4 : st.blinded = st'.blinded := show (bareState st).blinded = (bareState st').blinded by rw [h]
  unfold restore2
  simp only [h1, h2, h3, h4]
  repeat' split
  all_goals exact ⟨_, _, _, rfl, rfl, fun hne => by first | rfl | exact absurd rfl hne⟩

/-- A request at two sessions that differ in hidden parts. -/
theorem ask_two {s s' : Session} {q : Svr.DB4.Req} (h1 : s.id = s'.id) (h2 : s.handshake = s'.handshake)
    (h3 : s.restore2.map bareState = s'.restore2.map bareState) :
    (stepS P s (.request q)).1 = (stepS P s' (.request q)).1 ∧ ((stepS P s (.request q)).2 = (stepS P s' (.request q)).2 ∨
      (∃ ap sc ver, q = .restore2 ap sc ver) ∧ ∃ x x', (stepS P s (.request q)).2 = some (.restore2 .ok x) ∧ (stepS P s' (.request q)).2 = some (.restore2 .ok x')) := by
  obtain ⟨id, hh, r⟩ := s
  obtain ⟨id', hh', r'⟩ := s'
  simp only at h1 h2 h3
  subst h1 h2
  cases q with
  | restore2 ap sc ver =>
    simp only [stepS, responseFromRequest]
    by_cases hid : id.length ≠ BACKUP_ID_SIZE
    · simp [hid]
    · cases r with
      | none =>
        cases r' with
        | none => exact ⟨rfl, .inl rfl⟩
        | some y => cases h3
      | some x =>
        cases r' with
        | none => cases h3
        | some y =>
          have h3 : bareState x = bareState y := by simpa using h3
          simp only [hid, if_false]
          by_cases hok : okScalar P sc = false ∨ okPoint P ap = false
          · simp [hok]
          · simp only [hok, if_false]
            obtain ⟨st, z, z', e1, e2, e3⟩ := restore2_two (P := P) (ap := ap) (sc := sc) (hh := hh) (ver := ver) h3
            rw [e1, e2]
            refine ⟨trivial, ?_⟩
            by_cases hs : st = .ok
            · subst hs
              exact .inr ⟨⟨ap, sc, ver, rfl⟩, z, z', rfl, rfl⟩
            · rw [e3 hs]
              exact .inl rfl
  | _ => exact ⟨rfl, .inl rfl⟩

/-- An effect at a session. -/
theorem effect_two {s s' : Session} {e e' : Effect} (h1 : s.id = s'.id) (h2 : s.handshake = s'.handshake)
    (h3 : s.restore2.map bareState = s'.restore2.map bareState) (h4 : e.resp = e'.resp) (h5 : e.r2.map bareState = e'.r2.map bareState) :
    (stepS P s (.effect e)).2 = some e.resp ∧ (stepS P s' (.effect e')).2 = some e.resp ∧
      (stepS P s (.effect e)).1.id = (stepS P s' (.effect e')).1.id ∧ (stepS P s (.effect e)).1.handshake = (stepS P s' (.effect e')).1.handshake ∧
      (stepS P s (.effect e)).1.restore2.map bareState = (stepS P s' (.effect e')).1.restore2.map bareState ∧
      ((∀ es t, e.resp ≠ .restore1 .ok es t) → s = s' → (stepS P s (.effect e)).1 = (stepS P s' (.effect e')).1) ∧
      ((∃ es t, e.resp = .restore1 .ok es t) → e = e' → (stepS P s (.effect e)).1 = (stepS P s' (.effect e')).1) := by
  obtain ⟨id, hh, r⟩ := s
  obtain ⟨id', hh', r'⟩ := s'
  obtain ⟨re, r2⟩ := e
  obtain ⟨re', r2'⟩ := e'
  simp only at h1 h2 h3 h4 h5
  subst h1 h2 h4
  have hd : (some (r2.getD R2State.default)).map bareState = (some (r2'.getD R2State.default)).map bareState := by
    cases r2 <;> cases r2' <;> first | rfl | (cases h5; done) | (simpa using h5)
  have plain : (∀ es t, re ≠ .restore1 .ok es t) → ∀ x, responseFromEffect x ⟨re, r2⟩ = (x, re) ∧ responseFromEffect x ⟨re, r2'⟩ = (x, re) := by
    intro hne x
    constructor
    · unfold responseFromEffect
      split
      · rename_i heq; exact absurd heq (hne _ _)
      · rfl
    · unfold responseFromEffect
      split
      · rename_i heq; exact absurd heq (hne _ _)
      · rfl
  by_cases hr : ∃ es t, re = .restore1 .ok es t
  · obtain ⟨es, t, rfl⟩ := hr
    refine ⟨rfl, rfl, rfl, rfl, hd, fun hne => absurd rfl (hne es t), fun _ he => ?_⟩
    cases he
    rfl
  · have hne : ∀ es t, re ≠ .restore1 .ok es t := fun es t h => hr ⟨es, t, h⟩
    simp only [stepS, (plain hne _).1, (plain hne _).2]
    exact ⟨trivial, trivial, trivial, trivial, h3, fun _ h => h, fun h => absurd h hr⟩

/-- One entry, in general. -/
theorem alike_entry (hs : SaddOK P) {m m1 : Marks} {w w' w1 : State4} {path : Bytes → Bool} {i : Nat} {l l' : Svr.DB4.Log} {r : Option Svr.DB4.Resp}
    (hR : Alike4 P a m w w') (hrun : run4 P path w (.entry i l) = .ok (w1, r)) (hv' : Svr.DB4.validate P l' = none) (hb : bareLog l = bareLog l')
    (hne : l.id ≠ a → l = l')
    (hacc : m1.account = false → if l.id = a then ∀ o o', Svr.DB4.look w.1 a = o → Svr.DB4.look w'.1 a = o' →
      (r = some (pstep4 P (path a) o l).2.resp) → (pstep4 P (path a) o l).1 = (pstep4 P (path a) o' l').1 else m.account = false)
    (hses : m1.session i = false → (∃ es t, r = some (.restore1 .ok es t)) →
      (pstep4 P (path l.id) (Svr.DB4.look w.1 l.id) l).2 = (pstep4 P (path l.id) (Svr.DB4.look w'.1 l.id) l').2)
    (hses' : ∀ j, m1.session j = false → (j = i → ∀ es t, r ≠ some (.restore1 .ok es t)) → m.session j = false) :
    ∃ w1', run4 P path w' (.entry i l') = .ok (w1', r) ∧ Alike4 P a m1 w1 w1' := by
  obtain ⟨⟨d1, e⟩, hr1, hr2⟩ := Out.bind_eq_ok.mp hrun
  have hv : Svr.DB4.validate P l = none := by
    unfold Svr.DB4.run at hr1
    obtain ⟨_, h1, _⟩ := Out.bind_eq_ok.mp hr1
    cases hv : Svr.DB4.validate P l with
    | none => rfl
    | some e => rw [hv] at h1; simp [Out.check] at h1
  have hid : l.id = l'.id := show (bareLog l).id = (bareLog l').id by rw [hb]
  obtain ⟨e1, k1, k2, k4, k5⟩ := view4 hs path hR.inv hv
  obtain ⟨e1', k1', k2', k4', k5'⟩ := view4 hs path hR.inv' hv'
  rw [← hid] at k1' k4' k5'
  rw [hr1] at k1
  injection k1 with k1
  obtain rfl : d1 = e1 := congrArg Prod.fst k1
  obtain he : e = _ := congrArg Prod.snd k1
  have hw1 : w1 = (d1, put4 w.2 i (stepS P (w.2 i) (.effect e)).1) ∧ r = (stepS P (w.2 i) (.effect e)).2 := by
    simp only [Out.pure_eq] at hr2
    injection hr2 with hr2
    exact ⟨(congrArg Prod.fst hr2).symm, (congrArg Prod.snd hr2).symm⟩
  have hlook : (Svr.DB4.look w.1 l.id).map bare = (Svr.DB4.look w'.1 l.id).map bare := by
    by_cases hc : l.id = a
    · rw [hc]; exact hR.account
    · rw [hR.others _ hc]
  obtain ⟨t1, t2, t3⟩ := bare_two (P := P) (path l.id) hlook hb
  rw [← he] at t2 t3
  obtain ⟨s1, s2, s3, _⟩ := hR.session i
  obtain ⟨f1, f2, f3, f4, f5, f6, f7⟩ := effect_two (P := P) s1 s2 s3 t2 t3
  have hr : r = some e.resp := hw1.2.trans f1
  refine ⟨(e1', put4 w'.2 i (stepS P (w'.2 i) (.effect (pstep4 P (path l.id) (Svr.DB4.look w'.1 l.id) l').2)).1), ?_, ?_⟩
  rotate_left
  · rw [hw1.1]
    refine ⟨k2, k2', ?_, ?_, ?_, ?_⟩
    · intro id hne'
      show Svr.DB4.look d1 id = Svr.DB4.look e1' id
      by_cases hc : id = l.id
      · rw [hc, k4, k4', hR.others l.id (hc ▸ hne'), hne (hc ▸ hne')]
      · rw [k5 id hc, k5' id hc]
        exact hR.others id hne'
    · show (Svr.DB4.look d1 a).map bare = (Svr.DB4.look e1' a).map bare
      by_cases hc : l.id = a
      · rw [← hc, k4, k4']
        exact t1
      · rw [k5 a (Ne.symm hc), k5' a (Ne.symm hc)]
        exact hR.account
    · intro hm
      show Svr.DB4.look d1 a = Svr.DB4.look e1' a
      have := hacc hm
      by_cases hc : l.id = a
      · rw [if_pos hc] at this
        rw [hc] at k4 k4' he
        rw [k4, k4']
        exact this _ _ rfl rfl (by rw [hr, he])
      · rw [if_neg hc] at this
        rw [k5 a (Ne.symm hc), k5' a (Ne.symm hc)]
        exact hR.clear this
    · intro j
      by_cases hj : j = i
      · subst hj
        simp only [put4, if_true]
        refine ⟨f3, f4, f5, fun hm => ?_⟩
        by_cases hr1 : ∃ es t, e.resp = .restore1 .ok es t
        · obtain ⟨es, t, h⟩ := hr1
          exact f7 ⟨es, t, h⟩ (he.trans (hses hm ⟨es, t, by rw [hr, h]⟩))
        · have := hses' j hm fun _ es t h => hr1 ⟨es, t, by rw [hr] at h; exact Option.some.inj h⟩
          exact f6 (fun es t h => hr1 ⟨es, t, h⟩) ((hR.session j).2.2.2 this)
      · simp only [put4, if_neg hj]
        obtain ⟨q1, q2, q3, q4⟩ := hR.session j
        refine ⟨q1, q2, q3, fun hm => ?_⟩
        exact q4 (hses' j hm fun h => absurd h hj)
  · simp only [run4, k1', Out.bind_ok, f2, hr]
    rfl

/-- One request. -/
theorem alike_ask {m : Marks} {w w' : State4} {i : Nat} {q : Svr.DB4.Req} (hR : Alike4 P a m w w') :
    Alike4 P a m (w.1, put4 w.2 i (stepS P (w.2 i) (.request q)).1) (w'.1, put4 w'.2 i (stepS P (w'.2 i) (.request q)).1) := by
  refine ⟨hR.inv, hR.inv', hR.others, hR.account, hR.clear, fun j => ?_⟩
  obtain ⟨s1, s2, s3, _⟩ := hR.session i
  by_cases hj : j = i
  · simp only [put4, if_pos hj, (ask_two (P := P) (q := q) s1 s2 s3).1]
    exact ⟨trivial, trivial, trivial, fun _ => trivial⟩
  · simp only [put4, if_neg hj]
    exact hR.session j

/-- A Create or RotateStart that is not answered OK leaves the account as it was. -/
theorem kept {ok : Bool} {o : Option Acct} {l : Svr.DB4.Log} (hl : (∃ n o a e z v, l.req = .create n o a e z v) ∨ ∃ v o e, l.req = .rotateStart v o e)
    (h1 : ∀ t, (pstep4 P ok o l).2.resp ≠ .create .ok t) (h2 : (pstep4 P ok o l).2.resp ≠ .rotateStart .ok) : (pstep4 P ok o l).1 = o := by
  obtain ⟨id, req⟩ := l
  unfold pstep4 at h1 h2 ⊢
  rcases hl with ⟨n, oo, aa, e, z, v, hl⟩ | ⟨v, oo, e, hl⟩
  · simp only at hl
    subst hl
    cases o with
    | none =>
      by_cases hn : n = 0
      · cases ok <;> simp [astep, hn, refused]
      · exfalso
        apply h1 n.toNat
        cases ok <;> simp [astep, hn, refused]
    | some x =>
      exfalso
      cases ok
      · exact h1 _ rfl
      · exact h1 _ rfl
  · simp only at hl
    subst hl
    cases o with
    | none => cases ok <;> rfl
    | some x =>
      cases hp : x.pending with
      | some p => cases ok <;> simp [astep, hp, refused]
      | none =>
        by_cases hv : v = x.version
        · cases ok <;> simp [astep, hp, hv, refused]
        · cases ok
          · simp [astep, hp, hv, refused]
          · exfalso
            apply h2
            simp [astep, hp, hv]

/-- A Create of others that is answered OK leaves the same in both. -/
theorem overwritten {ok : Bool} {o o' : Option Acct} {id : Bytes} {n : UInt32} {op au en ze : Bytes} {v : UInt32} (ho : o.map bare = o'.map bare) :
    (pstep4 P ok o ⟨id, .create n op au en ze v⟩).1 = (pstep4 P ok o' ⟨id, .create n op au en ze v⟩).1 := by
  cases o with
  | none =>
    cases o' with
    | none => rfl
    | some y => cases ho
  | some x =>
    cases o' with
    | none => cases ho
    | some y =>
      have h : x.left = y.left := show (bare x).left = (bare y).left by rw [Option.some.inj ho]
      cases ok <;> simp [pstep4, astep, refused, h]

theorem resp_create {ok : Bool} {o : Option Acct} {id : Bytes} {n : UInt32} {op au en ze : Bytes} {v : UInt32} :
    ∃ s t, (pstep4 P ok o ⟨id, .create n op au en ze v⟩).2.resp = .create s t := by
  cases o with
  | none => by_cases hn : n = 0 <;> cases ok <;> simp [pstep4, astep, refused, hn]
  | some x => cases ok <;> exact ⟨_, _, rfl⟩

theorem resp_rotate {ok : Bool} {o : Option Acct} {id : Bytes} {od ed : Bytes} {v : UInt32} :
    ∃ s, (pstep4 P ok o ⟨id, .rotateStart v od ed⟩).2.resp = .rotateStart s := by
  cases o with
  | none => cases ok <;> exact ⟨_, rfl⟩
  | some x =>
    cases hp : x.pending with
    | some p => cases ok <;> simp [pstep4, astep, refused, hp]
    | none => by_cases hv : v = x.version <;> cases ok <;> simp [pstep4, astep, refused, hp, hv]

/-- The answer to an entry. -/
theorem entry_resp (hs : SaddOK P) {w w1 : State4} {path : Bytes → Bool} {i : Nat} {l : Svr.DB4.Log} {r : Option Svr.DB4.Resp} (hi : Svr.DB4.Inv P w.1)
    (hrun : run4 P path w (.entry i l) = .ok (w1, r)) :
    Svr.DB4.validate P l = none ∧ r = some (pstep4 P (path l.id) (Svr.DB4.look w.1 l.id) l).2.resp := by
  obtain ⟨⟨d1, e⟩, hr1, hr2⟩ := Out.bind_eq_ok.mp hrun
  have hv : Svr.DB4.validate P l = none := by
    unfold Svr.DB4.run at hr1
    obtain ⟨_, h1, _⟩ := Out.bind_eq_ok.mp hr1
    cases hv : Svr.DB4.validate P l with
    | none => rfl
    | some e => rw [hv] at h1; simp [Out.check] at h1
  obtain ⟨e1, k1, _⟩ := view4 hs path hi hv
  rw [hr1] at k1
  injection k1 with k1
  have he : e = _ := congrArg Prod.snd k1
  simp only [Out.pure_eq] at hr2
  injection hr2 with hr2
  have := (congrArg Prod.snd hr2).symm
  rw [← he]
  exact ⟨hv, this.trans (effect_two (P := P) (s := w.2 i) (s' := w.2 i) (e := e) (e' := e) rfl rfl rfl rfl rfl).1⟩

/-- Shares and deltas have the size the protocol takes. -/
def Sized4 (v : Nat → Bytes) : Prop := ∀ k, (v k).length = 32

theorem alike_step4 (hs : SaddOK P) {v v' : Nat → Bytes} (hv' : Sized4 v') {m : Marks} {w w' w1 : State4} {path : Bytes → Bool} {t : Act4}
    {r : Option Svr.DB4.Resp} (hR : Alike4 P a m w w') (hrun : run4 P path w (fill4 a v t) = .ok (w1, r)) (hg : Shut m t (seen4 w path t r)) :
    ∃ w1' r', run4 P path w' (fill4 a v' t) = .ok (w1', r') ∧ seen4 w' path t r' = seen4 w path t r ∧
      Alike4 P a (mark a m (t, seen4 w path t r)) w1 w1' := by
  cases t with
  | create i k n oprf auth zero version =>
    obtain ⟨q1, q2⟩ := entry_resp hs hR.inv hrun
    obtain ⟨s, tr, q3⟩ := resp_create (P := P) (ok := path a) (o := Svr.DB4.look w.1 a) (id := a) (n := n) (op := oprf) (au := auth) (en := v k)
      (ze := zero) (v := version)
    have q2 : r = some (.create s tr) := q2.trans (congrArg some q3)
    have hval : Svr.DB4.validate P ⟨a, .create n oprf auth (v' k) zero version⟩ = none := by
      rw [Svr.DB4.validate_iff] at q1 ⊢
      obtain ⟨h1, h2, h3, h4, h5, _, h6⟩ := q1
      exact ⟨h1, h2, h3, h4, h5, hv' k, h6⟩
    have hm : mark a m (.create i k n oprf auth zero version, r) = if s = .ok then { m with account := true } else m := by
      rw [q2]
      cases s <;> rfl
    obtain ⟨w1', g1, g2⟩ := alike_entry (m1 := mark a m (.create i k n oprf auth zero version, r)) hs hR hrun hval rfl (fun h => absurd rfl h) (by
      rw [hm]
      intro hacc
      rw [if_pos rfl]
      intro o o' ho ho' hr
      by_cases hsk : s = .ok
      · rw [if_pos hsk] at hacc; cases hacc
      · rw [if_neg hsk] at hacc
        have hoo : o = o' := by rw [← ho, ← ho']; exact hR.clear hacc
        have hne : ∀ t, Svr.DB4.Resp.create s tr ≠ .create .ok t := fun t h => hsk (by cases h; rfl)
        have e1 : (pstep4 P (path a) o ⟨a, .create n oprf auth (v k) zero version⟩).2.resp = .create s tr := by rw [← ho]; exact q3
        have e2 := (bare_two (P := P) (path a) (o := o) (o' := o') (l := ⟨a, .create n oprf auth (v k) zero version⟩)
          (l' := ⟨a, .create n oprf auth (v' k) zero version⟩) (by rw [hoo]) rfl).2.1
        rw [kept (.inl ⟨_, _, _, _, _, _, rfl⟩) (by rw [e1]; exact hne) (by rw [e1]; intro h; cases h),
          kept (.inl ⟨_, _, _, _, _, _, rfl⟩) (by rw [← e2, e1]; exact hne) (by rw [← e2, e1]; intro h; cases h), hoo])
      (by rintro _ ⟨es, t, h⟩; rw [q2] at h; cases h) (by
        intro j hj _
        rw [hm] at hj
        by_cases hsk : s = .ok
        · rw [if_pos hsk] at hj; exact hj
        · rw [if_neg hsk] at hj; exact hj)
    exact ⟨w1', r, g1, rfl, g2⟩
  | rotate i k version od =>
    obtain ⟨q1, q2⟩ := entry_resp hs hR.inv hrun
    obtain ⟨s, q3⟩ := resp_rotate (P := P) (ok := path a) (o := Svr.DB4.look w.1 a) (id := a) (od := od) (ed := v k) (v := version)
    have q2 : r = some (.rotateStart s) := q2.trans (congrArg some q3)
    have hval : Svr.DB4.validate P ⟨a, .rotateStart version od (v' k)⟩ = none := by
      rw [Svr.DB4.validate_iff] at q1 ⊢
      obtain ⟨h1, h2, h3, _⟩ := q1
      exact ⟨h1, h2, h3, hv' k⟩
    have hm : mark a m (.rotate i k version od, r) = if s = .ok then { m with account := true } else m := by
      rw [q2]
      cases s <;> rfl
    obtain ⟨w1', g1, g2⟩ := alike_entry (m1 := mark a m (.rotate i k version od, r)) hs hR hrun hval rfl (fun h => absurd rfl h) (by
      rw [hm]
      intro hacc
      rw [if_pos rfl]
      intro o o' ho ho' hr
      by_cases hsk : s = .ok
      · rw [if_pos hsk] at hacc; cases hacc
      · rw [if_neg hsk] at hacc
        have hoo : o = o' := by rw [← ho, ← ho']; exact hR.clear hacc
        have hne : Svr.DB4.Resp.rotateStart s ≠ .rotateStart .ok := fun h => hsk (by cases h; rfl)
        have e1 : (pstep4 P (path a) o ⟨a, .rotateStart version od (v k)⟩).2.resp = .rotateStart s := by rw [← ho]; exact q3
        have e2 := (bare_two (P := P) (path a) (o := o) (o' := o') (l := ⟨a, .rotateStart version od (v k)⟩)
          (l' := ⟨a, .rotateStart version od (v' k)⟩) (by rw [hoo]) rfl).2.1
        rw [kept (.inr ⟨_, _, _, rfl⟩) (by rw [e1]; intro t h; cases h) (by rw [e1]; exact hne),
          kept (.inr ⟨_, _, _, rfl⟩) (by rw [← e2, e1]; intro t h; cases h) (by rw [← e2, e1]; exact hne), hoo])
      (by rintro _ ⟨es, t, h⟩; rw [q2] at h; cases h) (by
        intro j hj _
        rw [hm] at hj
        by_cases hsk : s = .ok
        · rw [if_pos hsk] at hj; exact hj
        · rw [if_neg hsk] at hj; exact hj)
    exact ⟨w1', r, g1, rfl, g2⟩
  | restore2 i ap sc version =>
    simp only [fill4, run4, Out.pure_eq] at hrun
    injection hrun with hrun
    obtain rfl : _ = w1 := congrArg Prod.fst hrun
    obtain rfl : _ = r := congrArg Prod.snd hrun
    obtain ⟨s1, s2, s3, _⟩ := hR.session i
    refine ⟨_, _, rfl, ?_, ?_⟩
    · rcases (ask_two (P := P) (q := .restore2 ap sc version) s1 s2 s3).2 with h | ⟨_, x, x', h, h'⟩
      · rw [h]
        rfl
      · rw [h, h']
        rfl
    · have hm : ∀ y, mark a m (.restore2 i ap sc version, y) = m := fun y => rfl
      rw [hm]
      exact alike_ask hR
  | other x =>
    cases x with
    | ask i q =>
      simp only [fill4, run4, Out.pure_eq] at hrun
      injection hrun with hrun
      obtain rfl : _ = w1 := congrArg Prod.fst hrun
      have hr : (stepS P (w.2 i) (.request q)).2 = r := congrArg Prod.snd hrun
      obtain ⟨s1, s2, s3, s4⟩ := hR.session i
      refine ⟨(w'.1, put4 w'.2 i (stepS P (w'.2 i) (.request q)).1), r, ?_, rfl, ?_⟩
      rotate_left
      · have hm : ∀ y, mark a m (.other (.ask i q), y) = m := fun y => rfl
        rw [hm]
        exact alike_ask hR
      · have : (stepS P (w'.2 i) (.request q)).2 = r := by
          rcases (ask_two (P := P) (q := q) s1 s2 s3).2 with h | ⟨⟨ap, sc, ver, rfl⟩, x, x', h, h'⟩
          · rw [← h, hr]
          · cases hm : m.session i with
            | false => rw [← s4 hm, hr]
            | true =>
              rw [hr] at h
              exact absurd h (hg hm x)
        simp only [fill4, run4, Out.pure_eq, this]
    | entry i l =>
      obtain ⟨q1, q2⟩ := entry_resp hs hR.inv hrun
      have hrun : run4 P path w (.entry i l) = .ok (w1, r) := hrun
      obtain ⟨w1', g1, g2⟩ := alike_entry (m1 := mark a m (.other (.entry i l), r)) hs hR hrun q1 rfl (fun _ => rfl) (by
        intro hacc
        by_cases hc : l.id = a
        · rw [if_pos hc]
          intro o o' ho ho' hr
          have hob : o.map bare = o'.map bare := by rw [← ho, ← ho']; exact hR.account
          obtain ⟨id, req⟩ := l
          by_cases hcr : ∃ n op au en ze v, req = .create n op au en ze v
          · obtain ⟨n, op, au, en, ze, v, rfl⟩ := hcr
            exact overwritten hob
          · have hm : m.account = false := by
              unfold mark at hacc
              split at hacc
              · cases hacc
              · cases hacc
              · rename_i heq _
                cases heq
                exact absurd ⟨_, _, _, _, _, _, rfl⟩ hcr
              · exact hacc
              · exact hacc
            rw [show o = o' by rw [← ho, ← ho']; exact hR.clear hm]
        · rw [if_neg hc]
          unfold mark at hacc
          split at hacc
          · cases hacc
          · cases hacc
          · rename_i heq _
            cases heq
            rw [if_neg hc] at hacc
            exact hacc
          · exact hacc
          · exact hacc) (by
        rintro hj ⟨es, t, h⟩
        have hlook : Svr.DB4.look w.1 l.id = Svr.DB4.look w'.1 l.id := by
          by_cases hc : l.id = a
          · rw [hc]
            apply hR.clear
            have : mark a m (.other (.entry i l), r) = { m with session := fun j => if j = i then m.account && decide (l.id = a) else m.session j } := by
              rw [h]
              obtain ⟨id, req⟩ := l
              cases req <;> rfl
            rw [this] at hj
            simpa [hc] using hj
          · exact hR.others _ hc
        rw [hlook]) (by
        intro j hj hne
        unfold mark at hj
        split at hj
        · exact hj
        · exact hj
        · split at hj <;> exact hj
        · rename_i heq hre
          cases heq
          by_cases hji : j = i
          · exact absurd hre (hne hji _ _)
          · simpa [hji] using hj
        · exact hj)
      exact ⟨w1', r, g1, rfl, g2⟩

/-- The game over SVR4. -/
abbrev play4 (P : Prims4) (a : Bytes) := play (run4 P) (fill4 a) seen4

/-- C85. Whatever the shares and deltas of an owner are, the same is seen of the enclave, as long as nobody but the owner has a Restore2 answered with a
share out of a session in which the owner's account was evaluated. -/
theorem C85_shares_hidden (hs : SaddOK P) {db : Svr.DB4.DB} (hi : Svr.DB4.Inv P db) (ss : Nat → Session) {v v' : Nat → Bytes} (hv' : Sized4 v')
    {σ : Plan Act4 (Option Svr.DB4.Resp)} {n : Nat} {w : State4} {o : List (Act4 × Option Svr.DB4.Resp)}
    (hp : play4 P a σ v n (db, ss) [] = .ok (w, o))
    (hg : ∀ p t r q, o = p ++ (t, r) :: q → Shut (marks a ⟨false, fun _ => false⟩ p) t r) :
    ∃ w', play4 P a σ v' n (db, ss) [] = .ok (w', o) := by
  have hR : Alike4 P a ⟨false, fun _ => false⟩ (db, ss) (db, ss) :=
    ⟨hi, hi, fun _ _ => rfl, rfl, fun _ => rfl, fun _ => ⟨rfl, rfl, rfl, fun _ => rfl⟩⟩
  obtain ⟨w', h, _⟩ := same_view (R := fun o d d' => Alike4 P a (marks a ⟨false, fun _ => false⟩ o) d d')
    (Good := fun p x => Shut (marks a ⟨false, fun _ => false⟩ p) x.1 x.2) (v := v) (v' := v') (o := []) (by
      intro o d d' t path d1 r hR hrun hg
      obtain ⟨d1', r', h1, h2, h3⟩ := alike_step4 hs hv' hR hrun hg
      exact ⟨d1', r', h1, h2, by simp only [marks, List.foldl_append, List.foldl]; exact h3⟩) hR hp (by
      rintro p ⟨t, s⟩ q e _
      exact hg p t s q e)
  exact ⟨w', h⟩

/-! ## Non-vacuity -/

section
open DB4 (P0 ida elt sc1 sc2 sc3 fresh pt)

/-- The owner creates and starts a rotation in session 0; others evaluate in session 1, and try a wrong proof; the owner evaluates and restores in
session 2; others ask how many tries are left, and overwrite the account, evaluate, and restore what they wrote themselves. -/
def plan4 : Plan Act4 (Option Svr.DB4.Resp) := fun o =>
  (match o.length with
  | 0 => .create 0 0 4 sc1 elt sc3 7
  | 1 => .rotate 0 1 8 sc2
  | 2 => .other (.entry 1 ⟨ida, .restore1 elt⟩)
  | 3 => .other (.ask 1 (.restore2 (pt sc1) sc2 8))
  | 4 => .other (.entry 2 ⟨ida, .restore1 elt⟩)
  | 5 => .restore2 2 (pt sc1) sc1 8
  | 6 => .other (.entry 1 ⟨ida, .query⟩)
  | 7 => .other (.entry 1 ⟨ida, .create 0 sc1 elt sc2 sc3 9⟩)
  | 8 => .other (.entry 1 ⟨ida, .restore1 elt⟩)
  | _ => .other (.ask 1 (.restore2 (pt sc1) sc1 9)), fun _ => true)

def sight4 (v : Nat → Bytes) : List (Act4 × Option Svr.DB4.Resp) := match play4 P0 ida plan4 v 10 (Svr.DB4.empty, fun _ => fresh) [] with
  | .ok (_, o) => o
  | _ => []

/-- The owner's share and delta. -/
def mine : Nat → Bytes := fun k => if k = 0 then sc2 else sc1

/-- What is seen of the last three: the share given out is the one others put there. -/
example : (sight4 mine).map (·.2) = [some (.create .ok 4), some (.rotateStart .ok), some (.restore1 .ok ((evalAll P0 ida elt
    ⟨elt, sc1, [], sc3, 7, 4, some ⟨8, sc2, []⟩⟩).getD []) 3), some (.restore2 .error []), some (.restore1 .ok ((evalAll P0 ida elt
    ⟨elt, sc1, [], sc3, 7, 4, some ⟨8, sc2, []⟩⟩).getD []) 2), some (.restore2 .ok []), some (.query .ok 2 7 8), some (.create .ok 2),
    some (.restore1 .ok ((evalAll P0 ida elt ⟨elt, sc1, [], sc3, 9, 2, none⟩).getD []) 1), some (.restore2 .ok sc2)] := by decide +kernel

def shutB (m : Marks) : Act4 × Option Svr.DB4.Resp → Bool
  | (.other (.ask i (.restore2 _ _ _)), some (.restore2 .ok _)) => !m.session i
  | _ => true

theorem shut_of {m : Marks} {t : Act4} {r : Option Svr.DB4.Resp} (h : shutB m (t, r) = true) : Shut m t r := by
  unfold Shut
  split
  · intro hm x hx
    subst hx
    simp [shutB, hm] at h
  · trivial

def shutAll (a : Bytes) (m : Marks) : List (Act4 × Option Svr.DB4.Resp) → Bool
  | [] => true
  | x :: o => shutB m x && shutAll a (mark a m x) o

theorem shutAll_spec : ∀ {o : List (Act4 × Option Svr.DB4.Resp)} {m : Marks}, shutAll a m o = true →
    ∀ p t r q, o = p ++ (t, r) :: q → Shut (marks a m p) t r
  | _, m, h, [], t, r, q, e => by
    subst e
    simp only [shutAll, Bool.and_eq_true, List.nil_append] at h
    exact shut_of h.1
  | _, m, h, x :: p, t, r, q, e => by
    subst e
    simp only [shutAll, Bool.and_eq_true, List.cons_append] at h
    exact shutAll_spec (o := p ++ (t, r) :: q) h.2 p t r q rfl

/-- The hypotheses of `C85_shares_hidden`. -/
example : SaddOK P0 ∧ Svr.DB4.Inv P0 Svr.DB4.empty ∧ Sized4 (fun _ => elt) ∧
    (∃ w, play4 P0 ida plan4 mine 10 (Svr.DB4.empty, fun _ => fresh) [] = .ok (w, sight4 mine)) ∧
    ∀ p t r q, sight4 mine = p ++ (t, r) :: q → Shut (marks ida ⟨false, fun _ => false⟩ p) t r := by
  refine ⟨DB4.P0_add, Svr.DB4.inv_empty _, fun _ => rfl, ?_, shutAll_spec (by decide +kernel)⟩
  have h : (match play4 P0 ida plan4 mine 10 (Svr.DB4.empty, fun _ => fresh) [] with | .ok _ => true | _ => false) = true := by decide +kernel
  unfold sight4
  split at h
  · rename_i z heq
    rw [heq]
    exact ⟨z.1, rfl⟩
  · cases h

end

end Svr.Props.Shares
