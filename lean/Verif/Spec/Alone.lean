import Verif.Spec.Attested

/-!
# What an enclave does with its own messages: specification for C93

The host decides where messages go, and may give an enclave the messages it sent. Here is the list of calls of Noise for the peer
that has the enclave's own key, in the order in which they are made, and what is assumed of Noise for such a list: that new
messages are new, that nobody without the private key can answer, and that nobody without the key of a cipher can seal.
-/

namespace Svr.Peers

variable {L : Lib}

/-- The calls of Noise for one peer. -/
inductive Call (L : Lib)
  /-- a handshake is begun: the message `m` is written, `h` is what is kept -/
  | wrote (h : L.Hs) (m : Bytes)
  /-- a handshake is answered: `m` is read, `out` is written, the keys to send and to receive are `t` and `r` -/
  | answered (m out : Bytes) (t r : L.Key)
  /-- the answer `out` is read with what was kept -/
  | finished (h : L.Hs) (out : Bytes)
  /-- text is sealed with this key -/
  | sealed (k : L.Key)
  /-- text is opened with this key -/
  | opened (k : L.Key)

/-- The call of Noise that beginning a handshake makes. -/
def beginCall (L : Lib) (me : Id) (priv : L.Priv) (rnd : Bytes) : Option (Call L) :=
  match L.new .initiator priv me with
  | .error _ => none
  | .ok h => (L.write h rnd).map fun x => .wrote x.1 x.2

/-- The call of Noise that answering makes, if it comes to that. -/
def answerCall (L : Lib) (me : Id) (priv : L.Priv) (syn rnd : Bytes) : Option (Call L) :=
  match L.parseConn syn, L.new .responder priv me with
  | some (_, m), .ok h =>
    (L.read h m).bind fun h => (L.write h rnd).bind fun x => (L.split x.1).map fun k => .answered m x.2 k.1 k.2
  | _, _ => none

/-- The call of Noise that each operation on the peer `me` makes (enclave/peers/peers.cc:269, 330-356, 195, 85, 131), leaving out
those that fail. -/
def opCall (L : Lib) (me : Id) (rnd : Bytes) (p : Peer L) : Op L → Option (Call L)
  | .connect priv _ => beginCall L me priv rnd
  | .maybeConnect priv _ => if p.state = .disconnected then beginCall L me priv rnd else none
  | .accept priv _ syn => answerCall L me priv syn rnd
  | .recv (.synack b) =>
    match p.handshake, L.parseConn b with
    | some h, some (_, out) => (L.read h out).map fun _ => .finished h out
    | _, _ => none
  | .recv (.data ct) =>
    match p.state, p.rx with
    | .connected, some c =>
      match Noise.decrypt (L.aead c.key) Noise.maxMessage true c.nonce ct with
      | .ok (_, some _) => some (.opened c.key)
      | _ => none
    | _, _ => none
  | .send _ =>
    match p.state, p.tx with
    | .connected, some c => some (.sealed c.key)
    | _, _ => none
  | _ => none

/-- The call of Noise for the peer `me` at an event. -/
def evCall (L : Lib) (me : Id) (w : World L) : Ev L → Option (Call L)
  | .run id rnd =>
    if id = me then
      match w.busy.find me, w.peers.find me with
      | some (_, op), some p => opCall L me rnd p op
      | _, _ => none
    else none
  | _ => none

/-- All calls of Noise for the peer `me` in a run. -/
def trace (L : Lib) (me : Id) : World L → List (Ev L) → List (Call L)
  | _, [] => []
  | w, e :: es =>
    match step L w e with
    | .ok (w', _) => (evCall L me w e).toList ++ trace L me w' es
    | _ => []

/-- What is assumed of Noise, when `me` is the key of this very enclave, so that nobody else has the private key. -/
structure Honest (l : List (Call L)) : Prop where
  /-- a message that begins a handshake has a new random key in it: nobody presented it before -/
  fresh : ∀ b a h m, l = b ++ .wrote h m :: a → ∀ out t r, .answered m out t r ∉ b
  /-- who began a handshake with `me` accepts an answer only from who has the private key of `me` and read that very message -/
  authentic : ∀ b a h out, l = b ++ .finished h out :: a → ∀ m, .wrote h m ∈ b → ∃ t r, .answered m out t r ∈ b
  /-- what opens with a key was sealed with it, by one who has it -/
  unforged : ∀ b a k, l = b ++ .opened k :: a → .sealed k ∈ b
  /-- the two directions have different keys, also after any number of changes of key -/
  apart : ∀ m out t r m' out' t' r', .answered m out t r ∈ l → .answered m' out' t' r' ∈ l → ∀ k, Rekeyed L t k → ¬ Rekeyed L r' k

end Svr.Peers
