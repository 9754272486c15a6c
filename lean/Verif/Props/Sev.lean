import Verif.Attest.SevFacts
import Mathlib.Tactic.IntervalCases

/-!
# C55: the hypervisor's table of certificates

Specification side: `Spec.CertTable`, `Spec.certFor`.
-/

namespace Svr.Props.Sev

open Svr Svr.Attest Svr.Attest.Sev Svr.Spec

/-- **C55 (in part).** Given that the argument `certs_size` is at most the size of the buffer, 24 bytes short of `2^32` at most, and that no
entry's end wraps around at `2^32`: nothing is read outside of the buffer, the function succeeds exactly on tables whose certificates lie
within `certs_size`, and sets each certificate to that of the last entry with its GUID.

Missing: entries whose `offset + length` is `2^32` or more; for them the claim is false, see `C55_end_wraps_around`. -/
theorem C55_table_is_read_exactly_partial (certs : Bytes) (size : Nat) (hs : size ≤ certs.length) (hw : size + 24 < 2^32)
    (wrap : NoWrap certs size) (e : Endorsements) :
    (∃ es, CertTable certs size es ∧
      certificatesToEndorsements certs size e =
        .ok (.ok ⟨certFor certs es uuidVcek e.vcek, certFor certs es uuidAsk e.ask, certFor certs es uuidArk e.ark,
          certFor certs es uuidVlek e.vlek, certFor certs es uuidCrl e.crl⟩)) ∨
    ((∃ er, certificatesToEndorsements certs size e = .ok (.error er)) ∧ ¬ ∃ es, CertTable certs size es) := by
  rcases table_sound certs size hs hw wrap (certs.length / 24 + 1) 0 e (by omega) (by omega) with ⟨er, h⟩ | ⟨es, rest, e1, e2, e3, e4, e5, e6⟩
  · refine Or.inr ⟨⟨er, h⟩, ?_⟩
    rintro ⟨es, t⟩
    obtain ⟨rest, hb⟩ := t.bytes
    have room := t.room
    have := table_complete certs size hs (by omega) es (certs.length / 24 + 1) 0 e [] rest (by omega) rfl hb t.guid t.live t.inside
      (by omega)
    rw [this] at h
    cases h
  · exact Or.inl ⟨es, ⟨e2, e3, e4, by omega, rest, e1⟩, by rw [certificatesToEndorsements, e6, fold_fields]⟩

/-- **C55.** Tables whose certificates lie within the buffer are always read right; only what is not such a table can be misread. -/
theorem C55_lawful_tables_are_read_right (certs : Bytes) (size : Nat) (hs : size ≤ certs.length) (hw : size < 2^32) (es : List CertEntry)
    (t : CertTable certs size es) (e : Endorsements) :
    certificatesToEndorsements certs size e =
      .ok (.ok ⟨certFor certs es uuidVcek e.vcek, certFor certs es uuidAsk e.ask, certFor certs es uuidArk e.ark,
        certFor certs es uuidVlek e.vlek, certFor certs es uuidCrl e.crl⟩) := by
  obtain ⟨rest, hb⟩ := t.bytes
  have room := t.room
  rw [certificatesToEndorsements, table_complete certs size hs hw es (certs.length / 24 + 1) 0 e [] rest (by omega) rfl hb t.guid t.live
    t.inside (by omega), fold_fields]

/-- A table of one entry with offset 1 and length `2^32 - 1`. -/
def wrapping : Bytes := (CertEntry.mk uuidVcek 1 0xffffffff).wire ++ zeros 40

/-- **C55 is false of the code.** A hypervisor that puts an entry with offset 1 and length `2^32 - 1` in its table makes the guest copy
4 GiB from a buffer of 64 bytes: the end of the certificate is computed in 32 bits as 0. -/
theorem C55_end_wraps_around (e : Endorsements) : certificatesToEndorsements wrapping 64 e = .ub := by
  have r : rd wrapping (24 * 0) 24 = .ok (CertEntry.mk uuidVcek 1 0xffffffff).wire := by decide +kernel
  have l : ¬ (1 + 4294967295 ≤ wrapping.length) := by decide +kernel
  rw [certificatesToEndorsements, table, if_neg (by decide), r, Out.bind_ok, if_neg (by decide +kernel)]
  rw [wire_offset _ (by decide), wire_len _ (by decide)]
  rw [if_neg (by decide)]
  show (rd wrapping 1 4294967295 >>= _) = Out.ub
  rw [rd, if_neg l]
  rfl

/-! ## Cases -/

/-- Two entries for the same GUID, one for another, and one that is unknown. -/
def entries : List CertEntry :=
  [⟨uuidVcek, 120, 2⟩, ⟨uuidAsk, 122, 1⟩, ⟨List.replicate 16 7, 120, 3⟩, ⟨uuidVcek, 121, 2⟩]

def buffer : Bytes := (entries.map CertEntry.wire).flatten ++ (zeros 24 ++ [10, 11, 12])

example : CertTable buffer 123 entries :=
  ⟨by decide, by decide, by decide, by decide, ⟨[10, 11, 12], rfl⟩⟩
example : certificatesToEndorsements buffer 123 ⟨[], [], [1], [], []⟩ = .ok (.ok ⟨[11, 12], [12], [1], [], []⟩) := by decide +kernel
-- without room for the last entry, and with a certificate that ends one byte late
example : certificatesToEndorsements buffer 119 ⟨[], [], [1], [], []⟩ = .ok (.error .certTooLarge) := by decide +kernel
example : certificatesToEndorsements buffer 122 ⟨[], [], [1], [], []⟩ = .ok (.error .certTooLarge) := by decide +kernel
example : certificatesToEndorsements (List.replicate 47 1) 20 ⟨[], [], [1], [], []⟩ = .ok (.error .entryTooLarge) := by decide +kernel

/-- The entries of the sample buffer do not wrap around. -/
example : NoWrap buffer 123 := by
  intro i hi
  have : i ≤ 4 := by omega
  interval_cases i <;> decide +kernel

end Svr.Props.Sev
