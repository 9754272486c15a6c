import Verif.ClientsLife
import Verif.Props.PeerSession
import Verif.DB2
import Verif.DB3
import Verif.DB4
import Verif.DB5
import Verif.Session4

/-!
# C49: client sessions never cross

`L` is the libraries and the type of database; `evs` is any sequence of calls from the host, of callbacks of Raft and of steps
of the threads, in any order.
-/

namespace Svr.Props.Clients
open Svr Svr.Clients

variable {L : Lib} {au : L.Cs → Bytes} {ky : L.Log → Bytes} {dh : L.Dh} {evs : List (Ev L)} {w : World L} {es : List (Eff L)}

theorem reach (hL : Sane L) (ho : Owned L au ky) (h : run L (begin L dh) evs = .ok (w, es)) :
    Inv L au (Asked evs) (auths evs) w es := by
  have := run_inv hL ho evs (begin_inv dh) h
  simpa using this

/-- **C49**: ids are not reused: of fewer than 2^64 clients, no two are announced with the same id. -/
theorem C49_ids (h : run L (begin L dh) evs = .ok (w, es)) (hn : (auths evs).length < 2 ^ 64) : (told es).Nodup := by
  have hg := run_gen evs h
  have := run_births evs (begin_births dh) h (by rw [hg]; show 1 + _ ≤ _; omega)
  simpa using this.nodup

/-- **C49**: an encrypted response answers a request that named a client, and is the encryption, by the object of that client, of
one message. -/
theorem C49_session (hL : Sane L) (ho : Owned L au ky) (h : run L (begin L dh) evs = .ok (w, es)) {tx : Nat} {ct : Bytes}
    (hr : Eff.reply tx (.data ct) ∈ es) :
    ∃ id k n p m, Asked evs tx id ∧ (∃ h, id = h % 2 ^ 64 ∧ 1 ≤ h ∧ h ≤ (auths evs).length ∧ Eff.sealed h k n p ∈ es ∧
      ((auths evs).length < 2 ^ 64 → h = id)) ∧ Noise.encrypt (L.aead k) Noise.maxMessage false n p = .ok (m, some ct) := by
  have hi := reach hL ho h
  obtain ⟨id, h', k, n, p, m, h1, h2, h3, h4⟩ := hi.seen _ hr
  obtain ⟨c, t, m', o, h5, -⟩ := hi.seen _ h3
  have hg := hi.objs h' c h5
  have hl := (List.getElem?_eq_some_iff.mp hg.auth).1
  have hp := hg.pos
  refine ⟨id, k, n, p, m, h1, ⟨h', h2, hp, by omega, h3, fun hn => ?_⟩, h4⟩
  rw [h2]; exact (idOf_eq (by omega)).symm

/-- **C49**: an object encrypts with one key, and never twice with the same nonce. -/
theorem C49_nonces (hL : Sane L) (ho : Owned L au ky) (h : run L (begin L dh) evs = .ok (w, es)) {i j h' : Nat} {k k' : L.Key}
    {n n' : Nat} {p p' : Bytes} (hij : i < j) (hi : es[i]? = some (.sealed h' k n p)) (hj : es[j]? = some (.sealed h' k' n' p')) :
    k' = k ∧ ∀ a ∈ usedNonces L k n p, ∀ b ∈ usedNonces L k' n' p', a < b := by
  have hv := reach hL ho h
  obtain ⟨li, hi⟩ := List.getElem?_eq_some_iff.mp hi
  obtain ⟨lj, hj⟩ := List.getElem?_eq_some_iff.mp hj
  have hap := List.pairwise_iff_getElem.mp hv.apart i j li lj hij
  obtain ⟨hk, m, o, he, hm⟩ := hap h' k n p k' n' p' hi hj
  subst hk
  refine ⟨rfl, fun a ha b hb => ?_⟩
  unfold usedNonces at ha hb
  simp only [List.mem_filter, List.mem_range'_1, decide_eq_true_eq] at ha hb
  have hne : n ≤ Noise.lastNonce := by omega
  rw [Noise.encrypt_eq (hL k').1 (hL k').2.2 (hL k').2.1 withAd p hne] at he
  split at he
  · cases he; omega
  · cases he; omega

/-- **C49**: the key that an object encrypts with is the key of a handshake made with the key pair whose public key was announced
for this client, and the evidence announced with it vouches for that public key. -/
theorem C49_attested_key (hL : Sane L) (ho : Owned L au ky) (h : run L (begin L dh) evs = .ok (w, es)) (hn : (auths evs).length < 2 ^ 64)
    {id tx : Nat} {k : L.Key} {n : Nat} {p pub : Bytes} {att : Option Bytes} (hs : Eff.sealed id k n p ∈ es)
    (hc : Eff.reply tx (.newClient id pub att) ∈ es) :
    ∃ pair rx out, L.pub pair = some pub ∧ KeysFrom L pair k rx out ∧ ∀ a, att = some a → Vouches L pub a := by
  have hi := reach hL ho h
  obtain ⟨h', c, e1, e2, e3⟩ := hi.seen _ hc
  obtain ⟨c', t, m, o, f1, f2, f3, -⟩ := hi.seen _ hs
  have b : ∀ x d, w.objs.find x = some d → x < 2 ^ 64 := by
    intro x d e
    have := (List.getElem?_eq_some_iff.mp (hi.objs x d e).auth).1
    omega
  rw [idOf_eq (b _ _ e2)] at e1
  subst e1
  rw [e2] at f1; cases f1
  obtain ⟨pair, g1, g2, -, g4⟩ := (hi.objs id c e2).from_
  obtain ⟨r, out, -, g5⟩ := g4 t f2
  rw [e3] at g1 g2
  rw [f3] at g5
  exact ⟨pair, r.key, out, g1, g5, g2⟩

/-- **C49**: evidence announced with a public key vouches for it, whatever rotations and refreshes were going on. -/
theorem C49_paired (hL : Sane L) (ho : Owned L au ky) (h : run L (begin L dh) evs = .ok (w, es)) {id tx : Nat} {pub a : Bytes}
    (hc : Eff.reply tx (.newClient id pub (some a)) ∈ es) : Vouches L pub a := by
  have hi := reach hL ho h
  obtain ⟨h', c, e1, e2, e3⟩ := hi.seen _ hc
  obtain ⟨pair, g1, g2, -⟩ := (hi.objs h' c e2).from_
  rw [e3] at g2
  exact g2 a rfl

/-- **C49**: what a client proposes is a valid log entry for the row of the authenticated id with which the host opened this
client. -/
theorem C49_own_row (hL : Sane L) (ho : Owned L au ky) (h : run L (begin L dh) evs = .ok (w, es)) (hn : (auths evs).length < 2 ^ 64)
    {tx id : Nat} {data : Bytes} (hp : Eff.propose tx id data ∈ es) :
    Asked evs tx id ∧ ∃ log, (auths evs)[id - 1]? = some (ky log) ∧ L.validate log = true ∧ L.serLog log = some data := by
  have hi := reach hL ho h
  obtain ⟨h', h1, h2, cs, req, rnd, log, m1, m2, m3, m4⟩ := hi.seen _ hp
  have hl := (List.getElem?_eq_some_iff.mp m1).1
  rw [idOf_eq (by omega)] at h2
  subst h2
  exact ⟨h1, log, by rw [ho.log _ _ _ _ m2]; exact m1, m3, m4⟩

/-- **C49**: when a client is no longer in the map and no thread has got hold of it, nothing is ever encrypted for it again. -/
theorem C49_closed {evs' : List (Ev L)} {w' : World L} {es' : List (Eff L)} {h : Nat}
    (hm : ∀ id, w.clients.find id ≠ some h) (ht : ∀ i t, w.tasks.find i = some t → t.holds ≠ some h ∧ t.makes ≠ some h)
    (hg : h < w.idGen) (hr : run L w evs' = .ok (w', es')) : ∀ k n p, Eff.sealed h k n p ∉ es' :=
  run_gone evs' ⟨hg, hm, ht⟩ hr

/-- **C49** (partial): nothing undefined happens if the host closes and uses only ids that it has been told of. The code does
not insist on this, see `C49_guessed_id_ub`. -/
theorem C49_no_ub_partial (hL : Sane L) (ho : Owned L au ky) (hp : Polite L dh evs) (hn : (auths evs).length < 2 ^ 64) :
    ∃ w es, run L (begin L dh) evs = .ok (w, es) := by
  suffices hs : ∀ (post : List (Ev L)) (pre : List (Ev L)) (w : World L) (es : List (Eff L)), evs = pre ++ post →
      run L (begin L dh) pre = .ok (w, es) → Births w es → Kept w es → ∃ w' es', run L w post = .ok (w', es') by
    exact hs evs [] _ _ rfl rfl (begin_births dh) (begin_kept dh)
  intro post
  induction post with
  | nil => intro pre w es _ _ _ _; exact ⟨_, _, rfl⟩
  | cons e post ih =>
    intro pre w es he hr hb hk
    obtain ⟨⟨w1, e1⟩, h1⟩ := step_total hL (reach hL ho hr) hk e
    have hgen : w1.idGen ≤ 2 ^ 64 := by
      have a := run_gen pre hr
      have b := step_gen h1
      have c : (auths evs).length = (auths pre).length + ((auths [e]).length + (auths post).length) := by
        rw [he, show e :: post = [e] ++ post from rfl, auths_append, auths_append, List.length_append, List.length_append]
      have d : (begin L dh).idGen = 1 := rfl
      omega
    have hr1 : run L (begin L dh) (pre ++ [e]) = .ok (w1, es ++ e1) := by
      have app : ∀ (a b : List (Ev L)) (v : World L) v1 f1, run L v a = .ok (v1, f1) → run L v (a ++ b) =
          (do let (x, g) ← run L v1 b; pure (x, f1 ++ g)) := by
        intro a
        induction a with
        | nil =>
          intro b v v1 f1 h
          cases h
          simp only [List.nil_append]
          cases run L v b <;> rfl
        | cons x a iha =>
          intro b v v1 f1 h
          unfold run at h
          obtain ⟨⟨v2, f2⟩, k1, h⟩ := Out.bind_eq_ok.mp h
          obtain ⟨⟨v3, f3⟩, k2, h⟩ := Out.bind_eq_ok.mp h
          cases h
          simp only [List.cons_append]
          rw [run, k1]
          simp only [Out.bind_ok]
          rw [iha b v2 _ _ k2]
          cases run L v1 b with
          | ok y => obtain ⟨y1, y2⟩ := y; simp
          | abort => rfl
          | ub => rfl
      rw [app pre [e] _ _ _ hr]
      simp [run, h1]
    have hn1 := hp pre e post he
    obtain ⟨w2, e2, h2⟩ := ih (pre ++ [e]) w1 (es ++ e1) (by rw [he]; simp) hr1 (step_births hb h1 hgen)
      (step_kept hb hk (fun id hid => hn1 id hid w es hr) h1 hgen)
    exact ⟨w2, e1 ++ e2, by rw [run, h1]; simp only [Out.bind_ok]; rw [h2]; rfl⟩

/-! ## The types of database

Each makes log entries only for the id of the client state. -/

theorem db2_own {a : Bytes} {r : DB2.Req} {l : DB2.Log} (h : DB2.logFromRequest a r = .ok l) : l.id = a := by
  unfold DB2.logFromRequest at h
  (split at h <;> cases h); rfl

theorem db3_own {a k : Bytes} {r : DB3.Req} {l : DB3.Log} (h : DB3.logFromRequest a k r = .ok l) : l.id = a := by
  unfold DB3.logFromRequest at h
  (split at h <;> cases h); rfl

theorem db4_own {a : Bytes} {r : DB4.Req} {l : DB4.Log} (h : DB4.logFromRequest a r = .ok l) : l.id = a := by
  unfold DB4.logFromRequest at h
  split at h
  · cases h
  · split at h <;> cases h <;> rfl

theorem db5_own {a : Bytes} {r : DB5.Req} {l : DB5.Log} (h : DB5.logFromRequest a r = .ok l) : l.id = a := by
  unfold DB5.logFromRequest at h
  (split at h <;> cases h); rfl

/-- The requests that a client of SVR4 may send to the log: a Restore2 is answered by the session itself. -/
def Logged4 : DB4.Req → Prop
  | .restore2 _ _ _ => False
  | .unset => False
  | _ => True

/-- The key of a log entry of SVR3: a new one for a Create, none for other requests. -/
def Key3 (new : Bytes) (r : DB3.Req) (key : Bytes) : Prop := ((∃ n b, r = .create n b) → key = new) ∧ ((∀ n b, r ≠ .create n b) → key = [])

/-- **C49.** What a client's request makes of the log is exactly the request under the client's id, if that has 16 bytes, and of SVR4 only the requests
that go there. -/
theorem C49_log_exact (a : Bytes) :
    (∀ (r : DB2.Req) (l : DB2.Log), DB2.logFromRequest a r = .ok l ↔ a.length = 16 ∧ l.id = a ∧ l.req = r) ∧
    (∀ (k : Bytes) (r : DB3.Req) (l : DB3.Log), DB3.logFromRequest a k r = .ok l ↔ a.length = 16 ∧ l.id = a ∧ l.req = r ∧ Key3 k r l.privkey) ∧
    (∀ (r : DB4.Req) (l : DB4.Log), DB4.logFromRequest a r = .ok l ↔ a.length = 16 ∧ l.id = a ∧ l.req = r ∧ Logged4 r) ∧
    (∀ (r : DB5.Req) (l : DB5.Log), DB5.logFromRequest a r = .ok l ↔ a.length = 16 ∧ l.id = a ∧ l.req = r) := by
  refine ⟨?_, ?_, ?_, ?_⟩
  · rintro r ⟨i, q⟩
    unfold DB2.logFromRequest DB2.BACKUP_ID_SIZE
    by_cases h : a.length = 16 <;> simp [h, eq_comm]
  · rintro k r ⟨i, q, key⟩
    unfold DB3.logFromRequest DB3.BACKUP_ID_SIZE
    by_cases h : a.length = 16
    · rw [if_neg (not_not.mpr h), Except.ok.injEq, DB3.Log.mk.injEq]
      constructor
      · rintro ⟨rfl, rfl, rfl⟩
        refine ⟨h, rfl, rfl, ?_, ?_⟩
        · rintro ⟨n, b, rfl⟩; rfl
        · intro hn
          cases r with
          | create n b => exact (hn n b rfl).elim
          | _ => rfl
      · rintro ⟨-, rfl, rfl, k1, k2⟩
        refine ⟨rfl, rfl, ?_⟩
        cases q with
        | create n b => exact (k1 ⟨n, b, rfl⟩).symm
        | _ => exact (k2 (by simp)).symm
    · simp [h]
  · rintro r ⟨i, q⟩
    unfold DB4.logFromRequest DB4.BACKUP_ID_SIZE
    by_cases h : a.length = 16
    · cases r <;> simp [h, Logged4, eq_comm]
    · simp [h]
  · rintro r ⟨i, q⟩
    unfold DB5.logFromRequest DB5.BACKUP_ID_SIZE
    by_cases h : a.length = 16 <;> simp [h, eq_comm]

/-- The sessions of an SVR2 enclave: `ResponseFromRequest` and `ResponseFromEffect` are those of the base class
(enclave/db/db.h:86-96). -/
def withDB2 (L : Lib) (parse : Bytes → Option DB2.Req) (ser : DB2.Log → Option Bytes) (serR : DB2.Resp → Option Bytes) : Lib :=
  { Dh := L.Dh, Hs := L.Hs, Key := L.Key, Cs := Bytes × Bytes, Req := DB2.Req, Resp := DB2.Resp, Log := DB2.Log, Effect := DB2.Resp
    newDh := L.newDh, pub := L.pub, evidence := L.evidence, start := L.start, action := L.action, read := L.read, write := L.write
    split := L.split, hash := L.hash, aead := L.aead
    newCs := fun a => (a, zeros 32), setHash := fun c h => (c.1, h), parseReq := parse
    respondReq := fun c _ => (c, .ok none), logFrom := fun c r _ => (DB2.logFromRequest c.1 r).toOption
    validate := fun l => (DB2.validate l).isNone, serLog := ser, respondEff := fun c e => (c, some e), serResp := serR }

theorem owned_db2 (L : Lib) (parse : Bytes → Option DB2.Req) (ser : DB2.Log → Option Bytes) (serR : DB2.Resp → Option Bytes) :
    Owned (withDB2 L parse ser serR) (fun c : Bytes × Bytes => c.1) (fun l : DB2.Log => l.id) where
  new _ := rfl
  setHash _ _ := rfl
  respondReq _ _ := rfl
  respondEff _ _ := rfl
  log c r _ l h := by
    have h : (DB2.logFromRequest c.1 r).toOption = some l := h
    cases e : DB2.logFromRequest c.1 r with
    | error x => rw [e] at h; cases h
    | ok x => rw [e] at h; cases h; exact db2_own e

/-- The sessions of an SVR3 enclave with the fourth type of database, which keeps state between the two restore requests. -/
def withDB4 (L : Lib) (P : DB4.Prims4) (parse : Bytes → Option DB4.Req) (ser : DB4.Log → Option Bytes) (serR : DB4.Resp → Option Bytes) : Lib :=
  { Dh := L.Dh, Hs := L.Hs, Key := L.Key, Cs := DB4.Session, Req := DB4.Req, Resp := DB4.Resp, Log := DB4.Log, Effect := DB4.Effect
    newDh := L.newDh, pub := L.pub, evidence := L.evidence, start := L.start, action := L.action, read := L.read, write := L.write
    split := L.split, hash := L.hash, aead := L.aead
    newCs := fun a => ⟨a, zeros 32, none⟩, setHash := fun c h => { c with handshake := h }, parseReq := parse
    respondReq := fun c r => match DB4.responseFromRequest P c r with
      | (c, .ok o) => (c, .ok o)
      | (c, .error _) => (c, .error ())
    logFrom := fun c r _ => (DB4.logFromRequest c.id r).toOption
    validate := fun l => (DB4.validate P l).isNone, serLog := ser
    respondEff := fun c e => match DB4.responseFromEffect c e with | (c, r) => (c, some r)
    serResp := serR }

theorem owned_db4 (L : Lib) (P : DB4.Prims4) (parse : Bytes → Option DB4.Req) (ser : DB4.Log → Option Bytes) (serR : DB4.Resp → Option Bytes) :
    Owned (withDB4 L P parse ser serR) (fun c : DB4.Session => c.id) (fun l : DB4.Log => l.id) where
  new _ := rfl
  setHash _ _ := rfl
  respondReq c r := by
    have : (DB4.responseFromRequest P c r).1.id = c.id := by
      cases r with
      | restore2 ap sc v =>
        unfold DB4.responseFromRequest
        dsimp only
        by_cases h : c.id.length ≠ DB4.BACKUP_ID_SIZE
        · rw [if_pos h]
        · rw [if_neg h]
          cases c.restore2 with
          | none => rfl
          | some st => dsimp only; split <;> rfl
      | _ => rfl
    show (match DB4.responseFromRequest P c r with | (c, .ok o) => (c, Except.ok o) | (c, .error _) => (c, .error ()) : DB4.Session × Except Unit (Option DB4.Resp)).1.id = c.id
    generalize DB4.responseFromRequest P c r = y at this ⊢
    obtain ⟨y1, _ | _⟩ := y <;> exact this
  respondEff c e := by
    show (DB4.responseFromEffect c e).1.id = c.id
    unfold DB4.responseFromEffect
    split <;> rfl
  log c r _ l h := by
    have h : (DB4.logFromRequest c.id r).toOption = some l := h
    cases e : DB4.logFromRequest c.id r with
    | error x => rw [e] at h; cases h
    | ok x => rw [e] at h; cases h; exact db4_own e

/-! ## Examples and counterexamples -/

/-- Toy libraries: a key pair is a number; the keys of a session tell the key pair and both messages' origin. -/
def toy : Lib :=
  { Dh := Nat, Hs := Nat × Nat, Key := Nat, Cs := Bytes, Req := Bytes, Resp := Bytes, Log := Bytes × Bytes, Effect := Bytes
    newDh := fun r => some r.length
    pub := fun d => some [UInt8.ofNat d]
    evidence := fun a _ => some (a.pub ++ a.config)
    start := fun d => some (d, 0)
    action := fun h => match h.2 with | 0 => .read | 1 => .write | 2 => .split | _ => .other
    read := fun h b => ((h.1, 1), b ≠ [])
    write := fun h _ => ((h.1, 2), some [UInt8.ofNat h.1])
    split := fun h => ((h.1, 3), some (2 * h.1, 2 * h.1 + 1))
    hash := fun _ => some [1]
    aead := Props.PeerSession.marked
    newCs := id
    setHash := fun c _ => c
    parseReq := some
    respondReq := fun c r => (c, .ok (if r = [0] then some [9] else none))
    logFrom := fun c r _ => some (c, r)
    validate := fun l => l.2.length ≤ 5
    serLog := fun l => some (l.1 ++ l.2)
    respondEff := fun c e => (c, some e)
    serResp := some }

theorem toy_sane : Sane toy := fun k => ⟨Props.PeerSession.marked_lawful k, (by decide : 0 < 3), (by decide : 3 < Noise.maxMessage)⟩

theorem toy_owned : Owned toy (fun c : Bytes => c) (fun l : Bytes × Bytes => l.1) where
  new _ := rfl
  setHash _ _ := rfl
  respondReq _ _ := rfl
  respondEff _ _ := rfl
  log c r _ l h := by
    have h : some (c, r) = some l := h
    cases h; rfl

/-- What the host sees, as data that can be compared. -/
inductive Seen
  | err (tx : Nat) | ok (tx : Nat) | new (tx id : Nat) (pub : Bytes) (att : Option Bytes) | hello (tx : Nat) (d : Bytes) | data (tx : Nat) (d : Bytes)
  | propose (tx id : Nat) (d : Bytes)
deriving DecidableEq

def seen : List (Eff toy) → List Seen
  | [] => []
  | .reply tx (.err _) :: t => .err tx :: seen t
  | .reply tx .ok :: t => .ok tx :: seen t
  | .reply tx (.newClient id p a) :: t => .new tx id p a :: seen t
  | .reply tx (.hello d) :: t => .hello tx d :: seen t
  | .reply tx (.data d) :: t => .data tx d :: seen t
  | .propose tx id d :: t => .propose tx id d :: seen t
  | .sealed _ _ _ _ :: t => seen t

def outcome (evs : List (Ev toy)) : Out (List Seen) :=
  match run toy (begin toy (3 : Nat)) evs with
  | .ok (_, es) => .ok (seen es)
  | .abort => .abort
  | .ub => .ub

/-- Thread `i` runs `n` steps. -/
def go (i n : Nat) : List (Ev toy) := List.replicate n (.run i [] true)

/-- A client is opened, finishes its handshake, asks something that is answered at once and something that goes through Raft. -/
def visit : List (Ev toy) :=
  [.refresh [8] .empty] ++ go 0 2 ++ [.newClient 10 [5, 5]] ++ go 1 3 ++ [.existing 11 1 [1]] ++ go 2 3 ++
  [.existing 12 1 [0, 7, 0, 7]] ++ go 3 5 ++ [.existing 13 1 [1, 2, 7, 1, 7]] ++ go 4 6 ++ [.complete 0 (.ok (some [4]))] ++ go 5 3

example : outcome visit = .ok [.new 10 1 [3] (some [3, 8]), .hello 11 [3], .data 12 [9, 6, 0, 7], .propose 13 1 [5, 5, 1, 2],
    .data 13 [4, 6, 1, 7]] := by decide +kernel

/-- The hypotheses of the theorems for it: fewer than 2^64 clients, and a host that keeps to the ids it was told. -/
example : (auths visit).length < 2 ^ 64 := by decide +kernel

def politeB (w : World toy) (l : List Nat) : List (Ev toy) → Bool
  | [] => true
  | e :: t => (match e.names with | none => true | some id => decide (id ∈ l)) &&
    match step toy w e with
    | .ok (w, es) => politeB w (l ++ told es) t
    | _ => true

theorem politeB_spec {e : Ev toy} {post : List (Ev toy)} {id : Nat} (hid : e.names = some id) : ∀ (pre : List (Ev toy)) {w w' : World toy}
    {l : List Nat} {es : List (Eff toy)}, politeB w l (pre ++ e :: post) = true → run toy w pre = .ok (w', es) → id ∈ l ++ told es
  | [], w, w', l, es, hb, hr => by
    cases hr
    simp only [List.nil_append, politeB, hid, Bool.and_eq_true, decide_eq_true_eq] at hb
    exact List.mem_append_left _ hb.1
  | x :: pre, w, w', l, es, hb, hr => by
    unfold run at hr
    obtain ⟨⟨w1, e1⟩, h1, hr⟩ := Out.bind_eq_ok.mp hr
    obtain ⟨⟨w2, e2⟩, h2, hr⟩ := Out.bind_eq_ok.mp hr
    cases hr
    simp only [List.cons_append, politeB, h1, Bool.and_eq_true] at hb
    have := politeB_spec hid pre hb.2 h2
    rwa [told_append, ← List.append_assoc]

example : Polite toy (3 : Nat) visit := by
  intro pre e post he id hid w es hr
  have hb : politeB (begin toy (3 : Nat)) [] visit = true := by decide +kernel
  rw [he] at hb
  simpa using politeB_spec hid pre hb hr

/-- After it is closed, the client meets the hypotheses of `C49_closed`: the map is empty and there is no thread. -/
example : (match run toy (begin toy (3 : Nat)) (visit ++ [.close 14 1] ++ go 6 1) with
    | .ok (w, _) => decide (w.clients.list = []) && w.tasks.list.isEmpty && decide (1 < w.idGen)
    | _ => false) = true := by decide +kernel

/-- The objects that encrypted, with their keys and nonces. -/
def sealings : List (Eff toy) → List (Nat × Nat × Nat)
  | [] => []
  | .sealed h k n _ :: t => (h, (show Nat from k), n) :: sealings t
  | _ :: t => sealings t

example : (match run toy (begin toy (3 : Nat)) visit with | .ok (_, es) => sealings es | _ => []) = [(1, 6, 0), (1, 6, 1)] := by decide +kernel

/-- A thread that has got hold of the client before it is closed still answers; one that comes later does not. -/
example : outcome ([.newClient 10 [5]] ++ go 0 3 ++ [.existing 11 1 [1]] ++ go 1 3 ++ [.existing 12 1 [0, 7, 0, 7]] ++ go 2 1 ++
    [.close 13 1] ++ go 3 1 ++ go 2 4 ++ [.existing 14 1 [0, 7, 1, 7]] ++ go 4 2) =
    .ok [.new 10 1 [3] none, .hello 11 [3], .ok 13, .data 12 [9, 6, 0, 7], .err 14] := by decide +kernel

/-- **C49**, the host's freedom: if the host closes the id that the next client is about to get, while the thread that makes this
client is between `NewClient` and its reply, that thread reads an object that is freed. -/
theorem C49_guessed_id_ub : outcome ([.newClient 10 [5]] ++ go 0 2 ++ [.close 11 1] ++ go 1 1 ++ go 0 1) = .ub := by decide +kernel

/-- **C49**: a refresh that began before a rotation and ends after it brings the old key back; clients opened then use it. The
evidence announced still vouches for the key announced. -/
theorem C49_rotation_undone : outcome ([.refresh [8] .empty] ++ go 0 1 ++ [.rotate [0, 0, 0, 0] [8] .empty] ++ go 1 2 ++
    [.newClient 10 [5]] ++ go 2 3 ++ go 0 1 ++ [.newClient 11 [5]] ++ go 3 3) =
    .ok [.new 10 1 [4] (some [4, 8]), .new 11 2 [3] (some [3, 8])] := by decide +kernel

/-- **C49**: of two refreshes, the one with the older configuration may end last, and its evidence stays. -/
theorem C49_stale_evidence : outcome ([.refresh [1] .empty] ++ go 0 1 ++ [.refresh [2] .empty] ++ go 1 2 ++ go 0 1 ++
    [.newClient 10 [5]] ++ go 2 3) = .ok [.new 10 1 [3] (some [3, 1])] := by decide +kernel

end Svr.Props.Clients
