import Verif.Bytes

/-!
# Specification: a TPM quote on the wire

The structure `TPMS_ATTEST` of the TPM 2.0 specification (part 2, 10.12.8 and 10.12.1) for a quote over all 24 registers of the SHA256
bank, as the TPM marshals it. Nothing here refers to the code under verification.
-/

namespace Svr.Spec

/-- What a TPM states in a quote. -/
structure Quote where
  /-- hash of the public area of the signing key -/
  key : Bytes
  /-- the qualifying data that the caller gave -/
  nonce : Bytes
  /-- milliseconds that the TPM has run, how often it was reset, how often it was restarted, and whether the time is reliable -/
  millis : UInt64
  resets : UInt32
  restarts : UInt32
  safe : UInt8
  firmware : UInt64
  /-- hash of the values of the registers -/
  digest : Bytes

/-- Hashes and qualifying data are 32 bytes. -/
structure Quote.Wf (q : Quote) : Prop where
  key : q.key.length = 32
  nonce : q.nonce.length = 32
  digest : q.digest.length = 32

/-- The bytes of a quote. -/
def Quote.wire (q : Quote) : Bytes :=
  -- magic: TPM_GENERATED_VALUE; type: TPM_ST_ATTEST_QUOTE
  [0xff, 0x54, 0x43, 0x47] ++ [0x80, 0x18] ++
  -- qualifiedSigner: size, algorithm SHA256, hash
  [0, 34] ++ [0, 0x0b] ++ q.key ++
  -- extraData: size, bytes
  [0, 32] ++ q.nonce ++
  -- clockInfo
  be64 q.millis.toNat ++ be32 q.resets.toNat ++ be32 q.restarts.toNat ++ [q.safe] ++
  -- firmwareVersion
  be64 q.firmware.toNat ++
  -- pcrSelect: one selection, bank SHA256, three bytes of bits, all set
  [0, 0, 0, 1] ++ [0, 0x0b] ++ [3, 0xff, 0xff, 0xff] ++
  -- pcrDigest: size, hash
  [0, 32] ++ q.digest

/-- The bytes of an RSASSA signature with SHA256 by a key of 2048 bits (`TPMT_SIGNATURE`). -/
def sigWire (s : Bytes) : Bytes := [0, 0x14] ++ [0, 0x0b] ++ [1, 0] ++ s

end Svr.Spec
