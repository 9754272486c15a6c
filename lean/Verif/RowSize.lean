import Verif.DB2
import Verif.DB3
import Verif.DB4
import Verif.DB5

/-!
# Wire format of replicated rows (enclave/proto/e2e.proto:85-122) and `MaxRowSerializedSize`

proto3 encoding: a field equal to its default is not written; a field number below 16 and its wire type
take one tag byte. All row messages only have such fields.
-/

namespace Svr.RowSize

/-- Base-128 varint, at most ten bytes (protobuf's `uint32`/`enum`/length encoding). `fuel` is the number
of bytes that may still be written. -/
def varintF : Nat → Nat → Bytes
  | 0, _ => []
  | fuel + 1, n => if n < 128 then [UInt8.ofNat n] else UInt8.ofNat (n % 128 + 128) :: varintF fuel (n / 128)

def varint (n : Nat) : Bytes := varintF 10 n

/-- `bytes` field. -/
def fBytes (tag : UInt8) (b : Bytes) : Bytes := if b.isEmpty then [] else tag :: (varint b.length ++ b)
/-- `uint32` field. -/
def fVarint (tag : UInt8) (n : Nat) : Bytes := if n = 0 then [] else tag :: varint n
/-- `fixed64` field; byte order does not matter here. -/
def fFixed64 (tag : UInt8) (n : UInt64) : Bytes := if n = 0 then [] else tag :: be64 n.toNat

/-- `enum` field; negative numbers are sign extended to 64 bits. -/
def fEnum (tag : UInt8) (n : UInt32) : Bytes :=
  fVarint tag (if n.toNat < 2^31 then n.toNat else n.toNat + (2^64 - 2^32))

/-- `e2e::DB2RowState` (e2e.proto:85-96). -/
def enc2 (x : DB2.RowPB) : Bytes :=
  fBytes 0x0a x.id ++ fVarint 0x10 x.tries.toNat ++ fBytes 0x1a x.data ++ fBytes 0x22 x.pin ++
    fEnum 0x28 x.state
/-- `e2e::DB3RowState` (e2e.proto:98-102). -/
def enc3 (x : DB3.RowPB) : Bytes := fBytes 0x0a x.id ++ fBytes 0x12 x.priv ++ fVarint 0x18 x.tries.toNat
/-- `e2e::DB4RowState` (e2e.proto:104-117). -/
def enc4 (x : DB4.RowPB) : Bytes :=
  fBytes 0x0a x.id ++ fVarint 0x10 x.tries.toNat ++ fBytes 0x1a x.oprf ++ fBytes 0x22 x.auth ++ fBytes 0x2a x.enc ++
    fBytes 0x32 x.zero ++ fBytes 0x3a x.oprfDelta ++ fBytes 0x42 x.encDelta ++ fFixed64 0x49 x.version ++
    fFixed64 0x51 x.newVersion
/-- `e2e::DB5RowState` (e2e.proto:119-122). -/
def enc5 (x : DB5.RowPB) : Bytes := fBytes 0x0a x.id ++ fBytes 0x12 x.data

/-- `DB2::Protocol::MaxRowSerializedSize` (enclave/db/db2.cc:30-38). -/
def max2 : Nat := DB2.BACKUP_ID_SIZE + 2 + DB2.MAX_DATA_SIZE + 2 + DB2.PIN_SIZE + 2 + 3
/-- `DB3::Protocol::MaxRowSerializedSize` (enclave/db/db3.cc:98-104). -/
def max3 : Nat := DB3.BACKUP_ID_SIZE + 2 + 32 + 2 + 2
/-- `DB4::Protocol::MaxRowSerializedSize` (enclave/db/db4.cc:239-256). -/
def max4 : Nat := DB4.BACKUP_ID_SIZE + 2 + 2 + (32 + 2) + (32 + 2) + (DB4.AES_KEY_SIZE + 2) + (32 + 2) + (32 + 2) +
  (DB4.AES_KEY_SIZE + 2) + 5 + 5
/-- `DB5::Protocol::MaxRowSerializedSize` (enclave/db/db5.cc:31-36). -/
def max5 : Nat := DB5.BACKUP_ID_SIZE + 2 + 32 + 2

theorem varint_len1 {n : Nat} (h : n < 128) : (varint n).length = 1 := by
  simp [varint, varintF, h]
theorem varint_len2 {n : Nat} (h : n < 16384) : (varint n).length ≤ 2 := by
  have : n / 128 < 128 := by omega
  simp only [varint, varintF, this, if_true]
  split <;> simp
theorem fBytes_len {tag : UInt8} {b : Bytes} {n : Nat} (h : b.length ≤ n) (hn : n < 128) : (fBytes tag b).length ≤ n + 2 := by
  unfold fBytes
  split
  · simp
  · simp only [List.length_cons, List.length_append, varint_len1 (show b.length < 128 by omega)]
    omega
theorem fVarint_len {tag : UInt8} {n : Nat} (h : n < 16384) : (fVarint tag n).length ≤ 3 := by
  unfold fVarint
  split
  · simp
  · have := varint_len2 h
    simp only [List.length_cons]
    omega
theorem fVarint_small {tag : UInt8} {n : Nat} (h : n < 128) : (fVarint tag n).length ≤ 2 := by
  unfold fVarint
  split
  · simp
  · have := varint_len1 h
    simp only [List.length_cons]
    omega
theorem fFixed64_len {tag : UInt8} {n : UInt64} : (fFixed64 tag n).length ≤ 9 := by
  unfold fFixed64
  split <;> simp

end Svr.RowSize
