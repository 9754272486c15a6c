import Verif.Attest.Tpm2Facts

/-!
# C54: reading the quotes of a TPM

Specification side: `Spec.Quote` and its bytes, `Spec.sigWire`.
-/

namespace Svr.Props.Tpm2

open Svr Svr.Attest Svr.Attest.Tpm2 Svr.Spec

/-- What the accessors of a parsed report return is what the quote states. -/
structure Reads (r : Attest.Tpm2.Report) (q : Quote) : Prop where
  key : r.keyHash = .ok q.key
  nonce : r.nonce = .ok q.nonce
  digest : r.pcrDigest = .ok q.digest
  millis : r.clock.millis = q.millis.toNat
  resets : r.clock.resets = q.resets.toNat
  restarts : r.clock.restarts = q.restarts.toNat
  safe : r.clock.safe = (q.safe == 1)
  firmware : r.firmware = q.firmware.toNat
  /-- what the signature is checked over -/
  data : r.data = q.wire

theorem reads_reportOf (q : Quote) (h : q.Wf) : Reads (reportOf q) q :=
  ⟨(reportOf_reads q h).1, (reportOf_reads q h).2.1, (reportOf_reads q h).2.2, rfl, rfl, rfl, rfl, rfl, rfl⟩

/-- **C54.** Whatever bytes it is given, the parser of quotes returns without reading outside of them. It accepts them exactly when they
are the bytes of a quote of all 24 registers of the SHA256 bank, and then each accessor reads that quote's field, in bounds. -/
theorem C54_quotes_are_read_exactly (data : Bytes) :
    (∃ q r, q.Wf ∧ data = q.wire ∧ Report.parse data = .ok (some r) ∧ Reads r q) ∨
    (Report.parse data = .ok none ∧ ¬ ∃ q : Quote, q.Wf ∧ data = q.wire) := by
  rcases parse_good data with h | ⟨r, h, q, hq, rfl, rfl⟩
  · refine Or.inr ⟨h, ?_⟩
    rintro ⟨q, hq, rfl⟩
    rw [parse_wire q hq] at h
    cases h
  · exact Or.inl ⟨q, _, hq, rfl, h, reads_reportOf q hq⟩

/-- **C54.** No two quotes have the same bytes, so that a signature over the bytes is a signature over the quote. -/
theorem C54_no_two_quotes_look_alike (p q : Quote) (hp : p.Wf) (hq : q.Wf) (h : p.wire = q.wire) : p = q := by
  have e := parse_wire p hp
  rw [h, parse_wire q hq] at e
  have e : reportOf q = reportOf p := by simpa using e
  have a := reads_reportOf p hp
  rw [← e] at a
  have b := reads_reportOf q hq
  have f1 : p.key = q.key := by simpa [a.key] using b.key
  have f2 : p.nonce = q.nonce := by simpa [a.nonce] using b.nonce
  have f3 : p.digest = q.digest := by simpa [a.digest] using b.digest
  have f4 : p.millis = q.millis := UInt64.toNat_inj.mp (a.millis.symm.trans b.millis)
  have f5 : p.resets = q.resets := UInt32.toNat_inj.mp (a.resets.symm.trans b.resets)
  have f6 : p.restarts = q.restarts := UInt32.toNat_inj.mp (a.restarts.symm.trans b.restarts)
  have f7 : p.firmware = q.firmware := UInt64.toNat_inj.mp (a.firmware.symm.trans b.firmware)
  have f8 : p.safe = q.safe := by
    simp only [Quote.wire, f1, f2, f3, f4, f5, f6, f7] at h
    simpa using h
  cases p; cases q
  simp_all

/-- **C54.** The parser of signatures never reads out of bounds and accepts exactly the bytes of an RSASSA signature of 2048 bits. -/
theorem C54_signatures_are_read_exactly (data : Bytes) :
    (∃ s, s.length = 256 ∧ data = sigWire s ∧ sigParse data = .ok (some s)) ∨
    (sigParse data = .ok none ∧ ¬ ∃ s, s.length = 256 ∧ data = sigWire s) := by
  rcases sigParse_good data with h | h
  · refine Or.inr ⟨h, ?_⟩
    rintro ⟨s, hs, rfl⟩
    rw [sigParse_wire s hs] at h
    cases h
  · exact Or.inl h

/-- **C54.** Registers are accepted exactly when they are 24 values of 32 bytes, one after the other. -/
theorem C54_registers_are_read_exactly (data : Bytes) (ps : List Bytes) :
    pcrsFromString data = some ps ↔ ps.length = 24 ∧ (∀ p ∈ ps, p.length = 32) ∧ ps.flatten = data :=
  pcrs_iff data ps

/-- **C54.** For a report that was parsed, the check of the registers returns, and succeeds exactly when the quote is about them. -/
theorem C54_registers_are_those_quoted (L : Lib) (r : Attest.Tpm2.Report) (q : Quote) (hq : q.Wf) (h : Reads r q) (ps : List Bytes) :
    r.verifyPCRs L ps = .ok (decide (L.sha256 ps.flatten = q.digest)) := by
  simp only [Report.verifyPCRs, h.digest, Out.bind_ok, Out.pure_eq]
  rw [ctEqBytes_iff _ _ 32 (L.sha256_length _) hq.digest]

/-- A quote. -/
def sample : Quote :=
  { key := List.replicate 32 1, nonce := List.replicate 32 2, millis := 12345678901, resets := 3, restarts := 4, safe := 1,
    firmware := 0x2020031200120003, digest := List.replicate 32 5 }

example : sample.Wf := ⟨by decide, by decide, by decide⟩
-- its bytes are parsed; with one more byte, or the type of another structure, they are not
example : (Report.parse sample.wire matches .ok (some _)) = true := by decide +kernel
example : (Report.parse (sample.wire ++ [0]) matches .ok none) = true := by decide +kernel
example : (Report.parse (sample.wire.set 5 0x17) matches .ok none) = true := by decide +kernel
example : (Report.parse (sample.wire.take 144) matches .ok none) = true := by decide +kernel
example : (sigParse (sigWire (List.replicate 256 7)) matches .ok (some _)) = true := by decide +kernel
example : (pcrsFromString (List.replicate 768 7)).isSome = true := by decide +kernel

end Svr.Props.Tpm2
