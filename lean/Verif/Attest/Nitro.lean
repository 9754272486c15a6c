import Verif.Attest.Lib
import Verif.Attest.Sev
import Verif.OMap
import Verif.Spec.Cbor
import Mathlib.Data.Int.Order.Basic

/-!
# Model of `enclave/attestation/nitro/nitro.cc`, and of `Attest` on AWS Nitro

CBOR is parsed by tinycbor, which is not in the repository. Its decoder is a parameter that gives the data items; its cursor is the list of
items that are left in the container. As the decoder reads the header of an item when it gets there, moving the cursor onto something that
is no header is an error (`advance`, `enter`).
-/

namespace Svr.Attest.Nitro

open Spec (Item)
open Sev (str)

inductive Err
  | cbor | coseFormat | attestationParse | encode | certificateDecode | chain | allocate | notEc | verify
deriving DecidableEq

/-- Functions that return an error or a value, and may throw (`abort`). -/
abbrev R (α : Type) := Out (Except Err α)

/-- `ASSIGN_OR_RETURN` (enclave/util/macros.h). -/
def andThen (x : R α) (f : α → R β) : R β :=
  match x with
  | .ok (.ok a) => f a
  | .ok (.error e) => .ok (.error e)
  | .abort => .abort
  | .ub => .ub

/-- What is outside of the enclave's code. -/
structure World where
  /-- whether a string or vector can be resized to a length; if not, `std::length_error` or `std::bad_alloc` is thrown, which nothing catches -/
  alloc : Nat → Bool
  /-- `cbor_parser_init`: the item at the front of the data; `bad` when that fails. Data after the item is ignored -/
  cbor : Bytes → Item

/-- `cbor_value_advance` and the other functions that move past an item. -/
def advance : List Item → Option (List Item)
  | [] => none
  | _ :: .bad :: _ => none
  | _ :: l => some l

/-- `cbor_value_enter_container`. -/
def enter : List Item → Option (List Item)
  | .bad :: _ => none
  | l => some l

/-- A result and the advanced cursor. -/
def past (a : α) (l : List Item) : R (α × List Item) :=
  match advance l with
  | some l => .ok (.ok (a, l))
  | none => .ok (.error .coseFormat)

/-- `CborTextString` (enclave/attestation/nitro/nitro.cc:26-40). -/
def textString (W : World) (l : List Item) : R (Bytes × List Item) :=
  match l with
  | .text b :: _ => if W.alloc b.length then past b l else .abort
  | .textCut n :: _ => if W.alloc n then .ok (.error .coseFormat) else .abort
  | _ => .ok (.error .coseFormat)

/-- `CborByteString` (enclave/attestation/nitro/nitro.cc:42-62). -/
def byteString (W : World) (l : List Item) : R (Bytes × List Item) :=
  match l with
  | .null :: _ => past [] l
  | .bytes b :: _ => if W.alloc b.length then past b l else .abort
  | .bytesCut n :: _ => if W.alloc n then .ok (.error .coseFormat) else .abort
  | _ => .ok (.error .coseFormat)

/-- `CborInt` (enclave/attestation/nitro/nitro.cc:64-72). -/
def int (l : List Item) : R (Int × List Item) :=
  match l with
  | .int n :: _ => if -2^63 ≤ n ∧ n < 2^63 then past n l else .ok (.error .coseFormat)
  | _ => .ok (.error .coseFormat)

/-- `CoseSign1` (enclave/attestation/nitro/nitro.h). -/
structure Cose where
  header : Bytes
  payload : Bytes
  signature : Bytes

/-- `CoseSign1::Valid` (enclave/attestation/nitro/nitro.cc:153-178). The function returns `bool`, and `ASSIGN_OR_RETURN` returns the error,
which is not zero, as `true`. -/
def Cose.valid (W : World) (c : Cose) : Bool :=
  match W.cbor c.header with
  | .map m =>
    match enter m with
    | none => false
    | some m =>
      match int m with
      | .ok (.ok (key, m)) =>
        match int m with
        | .ok (.ok (val, m)) => m.isEmpty && key == 1 && val == -35 && decide (0 < c.payload.length) && c.signature.length == 96
        | _ => true
      | _ => true
  | _ => false

/-- The empty map of unprotected headers (enclave/attestation/nitro/nitro.cc:137-143). -/
def emptyMap (l : List Item) : R (List Item) :=
  match l with
  | .map [] :: _ => match advance l with
    | some l => .ok (.ok l)
    | none => .ok (.error .coseFormat)
  | _ => .ok (.error .coseFormat)

/-- `CoseSign1::ParseFromBytes` (enclave/attestation/nitro/nitro.cc:118-151). -/
def Cose.parse (W : World) (data : Bytes) : R Cose :=
  match W.cbor data with
  | .bad => .ok (.error .cbor)
  | .arr (some 4) elts =>
    match enter elts with
    | none => .ok (.error .coseFormat)
    | some elts =>
      andThen (byteString W elts) fun (header, elts) =>
      andThen (emptyMap elts) fun elts =>
      andThen (byteString W elts) fun (payload, elts) =>
      andThen (byteString W elts) fun (signature, elts) =>
      if ¬ elts.isEmpty then .ok (.error .cbor)
      else if ¬ Cose.valid W ⟨header, payload, signature⟩ then .ok (.error .coseFormat)
      else .ok (.ok ⟨header, payload, signature⟩)
  | _ => .ok (.error .coseFormat)

/-- `cbor_encode_text_stringz`, `cbor_encode_byte_string` and so on: append to the buffer if there is room. -/
def put (cap : Nat) (x : Bytes) (buf : Option Bytes) : Option Bytes :=
  match buf with
  | none => none
  | some b => if b.length + x.length ≤ cap then some (b ++ x) else none

/-- `CoseSign1::SigningBytes` (enclave/attestation/nitro/nitro.cc:180-196). `sizeof(COSE_SIGN1_NAME)` is 11. The argument of each header is
written in the shortest way. -/
def Cose.signingBytes (c : Cose) : Except Err Bytes :=
  let cap := c.header.length + c.payload.length + 11 + 128
  match put cap (Spec.cborHead 2 c.payload.length ++ c.payload)
      (put cap (Spec.cborHead 2 0)
        (put cap (Spec.cborHead 2 c.header.length ++ c.header)
          (put cap (Spec.cborHead 3 10 ++ str "Signature1")
            (put cap (Spec.cborHead 4 4) (some []))))) with
  | some b => .ok b
  | none => .error .encode

/-- `AttestationDoc` (enclave/attestation/nitro/nitro.h). -/
structure Doc where
  moduleId : Bytes := []
  digest : Bytes := []
  timestamp : Int := 0
  pcrs : OMap Int Bytes := .empty
  certificate : Bytes := []
  cabundle : List Bytes := []
  publicKey : Bytes := []
  userData : Bytes := []
  nonce : Bytes := []

/-- An `int64_t` as an `int`. -/
def toInt32 (n : Int) : Int := (n + 2^31) % 2^32 - 2^31

/-- The loop over the registers (enclave/attestation/nitro/nitro.cc:247-251). The first argument bounds the number of rounds; each takes two
items. -/
def pcrLoop (W : World) : Nat → List Item → OMap Int Bytes → R (OMap Int Bytes)
  | _, [], m => .ok (.ok m)
  | 0, _ :: _, _ => .ub
  | fuel+1, l, m =>
    andThen (int l) fun (key, l) =>
    andThen (byteString W l) fun (val, l) =>
    pcrLoop W fuel l (m.insert (toInt32 key) val)

/-- The loop over the certificates (enclave/attestation/nitro/nitro.cc:263-266). -/
def bundleLoop (W : World) : Nat → List Item → List Bytes → R (List Bytes)
  | _, [], cs => .ok (.ok cs)
  | 0, _ :: _, _ => .ub
  | fuel+1, l, cs =>
    andThen (byteString W l) fun (val, l) =>
    bundleLoop W fuel l (cs ++ [val])

/-- `cbor_value_leave_container`. -/
def leave (a : α) (l : List Item) : R (α × List Item) :=
  match advance l with
  | some l => .ok (.ok (a, l))
  | none => .ok (.error .cbor)

/-- One round of the loop over the fields of the document, after the key (enclave/attestation/nitro/nitro.cc:224-277). -/
def field (W : World) (key : Bytes) (l : List Item) (d : Doc) : R (Doc × List Item) :=
  if key == str "module_id" then andThen (textString W l) fun (v, l) => .ok (.ok ({ d with moduleId := v }, l))
  else if key == str "digest" then andThen (textString W l) fun (v, l) => .ok (.ok ({ d with digest := v }, l))
  else if key == str "certificate" then andThen (byteString W l) fun (v, l) => .ok (.ok ({ d with certificate := v }, l))
  else if key == str "public_key" then andThen (byteString W l) fun (v, l) => .ok (.ok ({ d with publicKey := v }, l))
  else if key == str "user_data" then andThen (byteString W l) fun (v, l) => .ok (.ok ({ d with userData := v }, l))
  else if key == str "nonce" then andThen (byteString W l) fun (v, l) => .ok (.ok ({ d with nonce := v }, l))
  else if key == str "pcrs" then
    match l with
    | .map m :: _ =>
      match enter m with
      | none => .ok (.error .cbor)
      | some m => andThen (pcrLoop W m.length m d.pcrs) fun pcrs => leave { d with pcrs } l
    | _ => .ok (.error .attestationParse)
  else if key == str "cabundle" then
    match l with
    | .arr _ a :: _ =>
      match enter a with
      | none => .ok (.error .cbor)
      | some a => andThen (bundleLoop W a.length a d.cabundle) fun cabundle => leave { d with cabundle } l
    | _ => .ok (.error .attestationParse)
  else if key == str "timestamp" then andThen (int l) fun (v, l) => .ok (.ok ({ d with timestamp := v }, l))
  else .ok (.error .attestationParse)

/-- The loop over the fields of the document (enclave/attestation/nitro/nitro.cc:222-278). -/
def docLoop (W : World) : Nat → List Item → Doc → R Doc
  | _, [], d => .ok (.ok d)
  | 0, _ :: _, _ => .ub
  | fuel+1, l, d =>
    andThen (textString W l) fun (key, l) =>
    andThen (field W key l d) fun (d, l) =>
    docLoop W fuel l d

/-- `AttestationDoc::Valid` (enclave/attestation/nitro/nitro.cc:284-313). -/
def Doc.valid (d : Doc) : Bool :=
  decide (d.moduleId.length ≠ 0) && d.digest == str "SHA384" && decide (0 < d.timestamp) &&
  decide (1 ≤ d.pcrs.size ∧ d.pcrs.size ≤ 32) &&
  d.pcrs.list.all (fun p => decide (0 ≤ p.1 ∧ p.1 < 32) && decide (p.2.length = 32 ∨ p.2.length = 48 ∨ p.2.length = 64)) &&
  decide (1 ≤ d.certificate.length ∧ d.certificate.length ≤ 1024) &&
  d.cabundle.all (fun c => decide (1 ≤ c.length ∧ c.length ≤ 1024)) && decide (d.cabundle.length ≠ 0) &&
  decide (d.publicKey.length ≤ 1024) && decide (d.userData.length ≤ 512) && decide (d.nonce.length ≤ 512)

/-- `AttestationDoc::ParseFromBytes` (enclave/attestation/nitro/nitro.cc:210-282). -/
def Doc.parse (W : World) (data : Bytes) : R Doc :=
  match W.cbor data with
  | .map m =>
    match enter m with
    | none => .ok (.error .cbor)
    | some m => andThen (docLoop W m.length m {}) fun d =>
      if d.valid then .ok (.ok d) else .ok (.error .attestationParse)
  | _ => .ok (.error .attestationParse)

/-- `d2i_X509` of a buffer that it has to use up (enclave/attestation/nitro/nitro.cc:315-322, 329-332). -/
def certificate (L : Lib) (b : Bytes) : Except Err L.Cert :=
  match L.d2i b with
  | none => .error .certificateDecode
  | some (c, n) => if n = b.length then .ok c else .error .certificateDecode

/-- `AttestationDoc::CABundle` (enclave/attestation/nitro/nitro.cc:324-337). -/
def caBundle (L : Lib) : List Bytes → Except Err (List L.Cert)
  | [] => .ok []
  | b :: bs =>
    match certificate L b with
    | .error e => .error e
    | .ok c => match caBundle L bs with
      | .error e => .error e
      | .ok cs => .ok (c :: cs)

/-- The times at which the chain may be valid (enclave/attestation/nitro/nitro.cc:24, 345). -/
def times (now : Int) : List Int := [now + 3600, now, now - 3600]

/-- `Verify` (enclave/attestation/nitro/nitro.cc:339-406). `roots` is the root certificate of AWS. Adding to a time that is out of the range of
`time_t` is undefined behaviour. -/
def verify (L : Lib) (roots : List L.Cert) (d : Doc) (c : Cose) (now : Int) : R Unit :=
  match certificate L d.certificate with
  | .error e => .ok (.error e)
  | .ok cert =>
  match caBundle L d.cabundle with
  | .error e => .ok (.error e)
  | .ok bundle =>
  match c.signingBytes with
  | .error e => .ok (.error e)
  | .ok toVerify =>
  if ¬ (-2^63 ≤ now - 3600 ∧ now + 3600 < 2^63) then .ub
  else if ¬ (times now).any (fun t => L.chain roots bundle cert t) then .ok (.error .chain)
  else
  match L.pub cert with
  | none => .ok (.error .allocate)
  | some key =>
  if c.signature.length ≠ 96 then .ok (.error .coseFormat)
  else
  match key with
  | .ec k =>
    if L.ecdsa k (L.sha384 toVerify) (be (c.signature.take 48)) (be (c.signature.drop 48)) then .ok (.ok ())
    else .ok (.error .verify)
  | _ => .ok (.error .notEc)

/-- `PCRMatches` (enclave/env/nsm/nsm.cc:145-151). -/
def pcrMatches (i : Int) (loc remote : OMap Int Bytes) : Bool :=
  match loc.find i, remote.find i with
  | some a, some b => ctEq a b
  | _, _ => false

/-- `PCRsMatch` (enclave/env/nsm/nsm.cc:153-166). -/
def pcrsMatch (loc remote : OMap Int Bytes) : Bool :=
  pcrMatches 0 loc remote && pcrMatches 1 loc remote && pcrMatches 2 loc remote

/-- `Attest` (enclave/env/nsm/nsm.cc:66-91) when not simulated. Any error is reported as the same one, `none` here. `loc` are the registers
that `Init` took from evidence of its own. -/
def attest (L : Lib) (W : World) (roots : List L.Cert) (loc : OMap Int Bytes) (now : Int) (evidence : Bytes) : Out (Option Data) :=
  Cose.parse W evidence >>= fun
  | .error _ => .ok none
  | .ok cose => Doc.parse W cose.payload >>= fun
    | .error _ => .ok none
    | .ok doc => verify L roots doc cose now >>= fun
      | .error _ => .ok none
      | .ok _ => if ¬ pcrsMatch loc doc.pcrs then .ok none else .ok (L.parseData doc.userData)

end Svr.Attest.Nitro
