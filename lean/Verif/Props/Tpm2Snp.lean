import Verif.Attest.Tpm2SnpFacts

/-!
# C56, C57, C60: evidence from virtual machines on Azure and GCP

Specification side: `Spec.Shows` and what it uses.
-/

namespace Svr.Props.Tpm2Snp

open Svr Svr.Attest Svr.Attest.Tpm2Snp Svr.Spec

attribute [local irreducible] Sev.minimumsFromReport Minimums.combineValues

/-- **C56.** `Attest` accepts evidence exactly when it shows all that it has to and the registers that matter are those of the own machine.
The key it returns is the one in the attestation data, and each value for the minimums is the lower of what the SNP report and the attestation
data say. -/
theorem C56_accepts_exactly (L : Lib) (F : Formats) (amd roots : List L.Cert) (loc : List Bytes) (hloc : loc.length = 24) (now : Int)
    (evidence endorsements : Bytes) (d : Data) :
    attest L F amd roots loc now evidence endorsements = .ok (.ok d) ↔
      ∃ ev en k r q ps d0, F.evidence evidence = some ev ∧ F.endorsements endorsements = some en ∧
        Shows L F amd roots now ev en k r q ps ∧ (∀ i ∈ sameRegisters, loc[i]? = ps[i]?) ∧
        L.parseData ev.attestationData = some d0 ∧ d.key = d0.key ∧
        ∀ name, d.values.find name = lowerValue (reportValue r name) (d0.values.find name) := by
  rw [attest]
  constructor
  · intro h
    cases h1 : F.evidence evidence with
    | none => rw [h1] at h; simp at h
    | some ev =>
      rw [h1] at h
      cases h2 : F.endorsements endorsements with
      | none => rw [h2] at h; simp at h
      | some en =>
        rw [h2] at h
        obtain ⟨k, r, q, ps, d0, sh, hp, hd, rfl⟩ := (complete_iff L F amd roots loc hloc ev en now d).mp h
        exact ⟨ev, en, k, r, q, ps, d0, rfl, rfl, sh, hp, hd, rfl, fun name => values_find r d0.values name⟩
  · rintro ⟨ev, en, k, r, q, ps, d0, h1, h2, sh, hp, hd, hk, hv⟩
    rw [h1, h2]
    refine (complete_iff L F amd roots loc hloc ev en now d).mpr ⟨k, r, q, ps, d0, sh, hp, hd, ?_⟩
    have : d.values = Minimums.combineValues (Minimums.combineValues (Sev.minimumsFromReport ⟨r⟩) OMap.empty) d0.values :=
      OMap.ext_find fun name => (hv name).trans (values_find r d0.values name).symm
    obtain ⟨dk, dv⟩ := d
    simp only at hk this
    rw [hk, this]

/-- **C56.** Of the buffer that Azure's firmware makes (a header of 32 bytes, the report, 20 bytes, the runtime data, zeros) exactly the
report and the runtime data are taken. -/
theorem C56_azure_buffer (head report mid runtime : Bytes) (n : Nat) (h1 : head.length = 32) (h2 : report.length = 1184)
    (h3 : mid.length = 20) (h4 : (0 : UInt8) ∉ runtime) :
    snpReportOfAzure (head ++ report ++ mid ++ runtime ++ List.replicate n 0) = .ok report ∧
    runtimeDataOfAzure (head ++ report ++ mid ++ runtime ++ List.replicate n 0) = .ok runtime := by
  have hl : ¬ (head ++ report ++ mid ++ runtime ++ List.replicate n 0).length < 1236 := by simp; omega
  constructor
  · rw [snpReportOfAzure, if_neg hl]
    have : head ++ report ++ mid ++ runtime ++ List.replicate n 0 = head ++ (report ++ (mid ++ runtime ++ List.replicate n 0)) := by
      simp
    rw [this, List.drop_append_of_le_length (by omega), ← h1, List.drop_length, List.nil_append, List.take_append_of_le_length (by omega),
      ← h2, List.take_length]
  · rw [runtimeDataOfAzure, if_neg hl]
    have : head ++ report ++ mid ++ runtime ++ List.replicate n 0 = (head ++ report ++ mid) ++ (runtime ++ List.replicate n 0) := by
      simp
    have hc : 1236 = (head ++ report ++ mid).length := by simp [h1, h2, h3]
    rw [this, hc, List.drop_left, cstr, List.takeWhile_append_of_pos (by
      intro a ha
      simpa using fun e : a = 0 => h4 (e ▸ ha))]
    have : (List.replicate n (0 : UInt8)).takeWhile (· ≠ 0) = [] := by cases n <;> simp [List.replicate_succ]
    rw [this, List.append_nil]

/-- **C56.** A shorter buffer is refused. -/
theorem C56_azure_buffer_short (b : Bytes) (h : b.length < 1236) :
    snpReportOfAzure b = .error .bufferTooSmall ∧ runtimeDataOfAzure b = .error .bufferTooSmall := by
  simp [snpReportOfAzure, runtimeDataOfAzure, h]

example : snpReportOfAzure (List.replicate 32 1 ++ List.replicate 1184 2 ++ List.replicate 20 3 ++ [4, 5] ++ List.replicate 9 0) =
    .ok (List.replicate 1184 2) :=
  (C56_azure_buffer _ _ _ _ _ List.length_replicate List.length_replicate List.length_replicate (by decide)).1

/-- Two inputs with the same hash. -/
def Collision (h : Bytes → Bytes) : Prop := ∃ x y, x ≠ y ∧ h x = h y

/-- **C56.** Say that `Made k q regs` means that a TPM with the key `k` quoted its registers `regs` in `q`. If keys certified by `roots` are those of
TPMs, so that they sign nothing but quotes, then evidence is accepted only if such a TPM quoted registers that agree with those of the own
machine where it matters, for a caller who gave the hash of exactly the attestation data from which the returned key was read; or else two
inputs of SHA256 with the same hash are known. -/
theorem C56_key_was_quoted_by_the_same_software (L : Lib) (F : Formats) (amd roots : List L.Cert) (loc : List Bytes) (hloc : loc.length = 24)
    (now : Int) (evidence endorsements : Bytes) (d : Data) (Made : L.Rsa → Quote → List Bytes → Prop)
    (quotes : ∀ k q regs, Made k q regs → q.Wf ∧ regs.length = 24 ∧ (∀ p ∈ regs, p.length = 32) ∧ q.digest = L.sha256 regs.flatten)
    (signs : ∀ c i k, L.chain roots [i] c now = true → L.pub c = some (.rsa k) → ∀ h s, L.rsaVerify k h s = true →
      ∃ q regs, Made k q regs ∧ h = L.sha256 q.wire)
    (acc : attest L F amd roots loc now evidence endorsements = .ok (.ok d)) :
    (∃ ev k q regs d0, F.evidence evidence = some ev ∧ Made k q regs ∧ q.nonce = L.sha256 ev.attestationData ∧
      L.parseData ev.attestationData = some d0 ∧ d.key = d0.key ∧ ∀ i ∈ sameRegisters, loc[i]? = regs[i]?) ∨
    Collision L.sha256 := by
  obtain ⟨ev, en, k, r, q, ps, d0, h1, h2, sh, hp, hd, hk, -⟩ := (C56_accepts_exactly L F amd roots loc hloc now evidence endorsements d).mp acc
  obtain ⟨c, n, e1, e2, i, m, e3, e4⟩ := sh.ak
  obtain ⟨s, -, -, hs⟩ := sh.signed
  obtain ⟨q', regs, hm, he⟩ := signs c i k e4 e2 _ _ hs
  obtain ⟨wf, l1, l2, hg⟩ := quotes k q' regs hm
  by_cases hw : q.wire = q'.wire
  · obtain rfl : q = q' := by
      have e := Tpm2.parse_wire q sh.wf
      rw [hw, Tpm2.parse_wire q' wf] at e
      have e : Tpm2.reportOf q' = Tpm2.reportOf q := by simpa using e
      have a := Tpm2.reportOf_reads q sh.wf
      have b := Tpm2.reportOf_reads q' wf
      rw [e] at b
      have c1 : q.key = q'.key := by simpa [a.1] using b.1
      have c2 : q.nonce = q'.nonce := by simpa [a.2.1] using b.2.1
      have c3 : q.digest = q'.digest := by simpa [a.2.2] using b.2.2
      have c4 : q'.millis = q.millis := UInt64.toNat_inj.mp (congrArg (fun r : Tpm2.Report => r.clock.millis) e)
      have c5 : q'.resets = q.resets := UInt32.toNat_inj.mp (congrArg (fun r : Tpm2.Report => r.clock.resets) e)
      have c6 : q'.restarts = q.restarts := UInt32.toNat_inj.mp (congrArg (fun r : Tpm2.Report => r.clock.restarts) e)
      have c7 : q'.firmware = q.firmware := UInt64.toNat_inj.mp (congrArg (fun r : Tpm2.Report => r.firmware) e)
      have c8 : q.safe = q'.safe := by
        simp only [Quote.wire, c1, c2, c3, c4, c5, c6, c7] at hw
        simpa using hw
      cases q; cases q'
      simp_all
    by_cases hf : ps.flatten = regs.flatten
    · have : ps = regs := by
        have e1 := Tpm2.chunks_flatten ps sh.registers.2.1
        have e2 := Tpm2.chunks_flatten regs l2
        rw [hf, sh.registers.1, ← l1, e2] at e1
        exact e1.symm
      subst this
      exact Or.inl ⟨ev, k, q, ps, d0, h1, hm, sh.nonce, hd, hk, hp⟩
    · exact Or.inr ⟨_, _, hf, by rw [← hg, sh.registers.2.2.2]⟩
  · exact Or.inr ⟨_, _, hw, he⟩

/-! ## The policy of the guest -/

/-- The policy of a report allows debugging or migration, or it is not a report of the version and with the kind of signature that the code is
made for. -/
def Lax (r : Bytes) : Prop :=
  (littleEndian ((r.drop 8).take 8)).testBit 18 = true ∨ (littleEndian ((r.drop 8).take 8)).testBit 19 = true ∨
  littleEndian (r.take 4) ≠ 2 ∨ littleEndian ((r.drop 52).take 4) ≠ 1

/-- **C57 (in part).** The verification in `sev.cc`, which only tests call, accepts no guest whose policy is lax, and only reports with the
measurement and host data of the own machine that a platform key signed; the returned key is in the report.

Missing: `Attest` of the environments for Azure and GCP, of which it is false, see `C57_lax_guests_are_accepted`. -/
theorem C57_policy_is_checked_partial (L : Lib) (amd : List L.Cert) (parse : Bytes → Option Sev.Endorsements) (loc : Sev.Report)
    (hloc : loc.raw.length = 1184) (evidence endorsements : Bytes) (now : Int) (d : Data)
    (h : Sev.dataFromVerifiedAttestation L amd parse loc evidence endorsements now = .ok (.ok d)) :
    ∃ r, r.length = 1184 ∧ r <+: evidence ∧ ¬ Lax r ∧ (r.drop 144).take 48 = (loc.raw.drop 144).take 48 ∧
      (r.drop 192).take 32 = (loc.raw.drop 192).take 32 ∧ d.key = (r.drop 80).take 32 ∧
      (∀ name, d.values.find name = reportValue r name) ∧
      ∃ en c n e, parse endorsements = some en ∧ L.d2i en.vcek = some (c, n) ∧ L.pub c = some (.ec e) ∧
        (∃ i m, L.d2i en.ask = some (i, m) ∧ L.chain amd [i] c now = true) ∧
        L.ecdsa e (L.sha384 (r.take 672)) (littleEndian ((r.drop 672).take 48)) (littleEndian ((r.drop 744).take 48)) = true := by
  rw [Sev.dataFromVerifiedAttestation] at h
  cases h1 : parse endorsements with
  | none => rw [h1] at h; simp at h
  | some en =>
    rw [h1] at h
    obtain ⟨x, h2, h⟩ := Out.bind_eq_ok.mp h
    rcases x with er | r
    · simp at h
    simp only at h
    obtain ⟨⟨l, pre⟩, c, n, e, hc, hp, hi, hv⟩ := (verifiedReport_iff L amd _ _ _ now r).mp h2
    cases h3 : Sev.allowRemote loc r with
    | error er => rw [h3] at h; simp at h
    | ok u =>
      rw [h3] at h
      simp only [Out.pure_eq, Out.ok.injEq, Except.ok.injEq] at h
      subst h
      rw [Sev.allowRemote] at h3
      cases h4 : Sev.validateReport r with
      | error er => rw [h4] at h3; cases h3
      | ok u =>
        rw [h4] at h3
        have h3 : (if ctEqBytes loc.measurement r.measurement 48 0 ≠ 0 then Except.error Sev.Err.measurement
          else if ctEqBytes loc.hostData r.hostData 32 0 ≠ 0 then .error .hostData else .ok ()) = Except.ok () := h3
        by_cases g1 : ctEqBytes loc.measurement r.measurement 48 0 ≠ 0
        · rw [if_pos g1] at h3; cases h3
        rw [if_neg g1] at h3
        by_cases g2 : ctEqBytes loc.hostData r.hostData 32 0 ≠ 0
        · rw [if_pos g2] at h3; cases h3
        have lm : ∀ x : Sev.Report, x.raw.length = 1184 → x.measurement.length = 48 ∧ x.hostData.length = 32 := by
          intro x hx; simp [Sev.Report.measurement, Sev.Report.hostData, Sev.Report.at, hx]
        have m1 := ctEqBytes_iff loc.measurement r.measurement 48 (lm _ hloc).1 (lm _ l).1
        have m2 := ctEqBytes_iff loc.hostData r.hostData 32 (lm _ hloc).2 (lm _ l).2
        have m1 : loc.measurement = r.measurement := by simpa [not_not.mp g1] using m1
        have m2 : loc.hostData = r.hostData := by simpa [not_not.mp g2] using m2
        refine ⟨r.raw, l, pre, ?_, m1.symm, m2.symm, ?_, ?_, en, c, n, e, rfl, hc, hp, hi, hv⟩
        · rw [Sev.validateReport] at h4
          by_cases p1 : r.policy.testBit 18 = true
          · rw [if_pos p1] at h4; cases h4
          rw [if_neg p1] at h4
          by_cases p2 : r.policy.testBit 19 = true
          · rw [if_pos p2] at h4; cases h4
          rw [if_neg p2] at h4
          by_cases p3 : r.version ≠ 2 ∨ r.signatureAlgo ≠ 1 ∨ r.flags &&& (0x04 ||| 0x08) ≠ 0
          · rw [if_pos p3] at h4; cases h4
          rw [Sev.Report.policy, le_littleEndian] at p1 p2
          rw [Sev.Report.version, Sev.Report.signatureAlgo, le_littleEndian, le_littleEndian] at p3
          rintro (q | q | q | q)
          · exact p1 q
          · exact p2 q
          · exact p3 (Or.inl q)
          · exact p3 (Or.inr (Or.inl q))
        · show (r.reportData.take 32) = _
          rw [Sev.Report.reportData, Sev.Report.at, List.take_take]
          rfl
        · intro name
          have := values_find r.raw OMap.empty name
          rw [Props.Minimums.combine_find, Props.Minimums.combine_find, OMap.find_empty] at this
          show (Minimums.combineValues (Sev.minimumsFromReport r) OMap.empty).find name = _
          rw [Props.Minimums.combine_find, OMap.find_empty, reportValue_find]
          cases reportValue r.raw name <;> rfl

/-! ## Outcomes that are not a result -/

/-- JSON as Azure makes it: an object whose keys, if it has them, are objects with ASCII exponent and modulus. -/
def Usual (doc : Json) : Prop :=
  (∃ l, doc = .obj l) ∧ ∀ ks, Member doc "keys".toList (.arr ks) → ∀ k ∈ ks, (∃ l, k = .obj l) ∧
    ∀ t, Text k "e".toList t ∨ Text k "n".toList t → ∀ c ∈ t, c.toNat < 128

theorem member_obj (l : List (Bytes × Json)) (name : Bytes) : ∃ x, member (.obj l) name = .ok x := ⟨_, rfl⟩

theorem findAkPub_total : ∀ ks : List Json, (∀ k ∈ ks, ∃ l, k = .obj l) → ∃ x, findAkPub ks = .ok x ∧ ∀ k ∈ x, k ∈ ks := by
  intro ks
  induction ks with
  | nil => intro _; exact ⟨none, rfl, by simp⟩
  | cons k ks ih =>
    intro h
    obtain ⟨l, rfl⟩ := h k (List.mem_cons_self ..)
    obtain ⟨b, hb⟩ := isAkPub_obj l
    rw [findAkPub, hb, Out.bind_ok]
    cases b with
    | true => exact ⟨_, rfl, by simp⟩
    | false =>
      obtain ⟨x, hx, hm⟩ := ih fun k hk => h k (List.mem_cons_of_mem _ hk)
      exact ⟨x, by simpa using hx, fun k hk => List.mem_cons_of_mem _ (hm k hk)⟩

theorem runtimeKey_total (F : Formats) (rt : Bytes) (h : ∀ s doc, CStr rt s → F.json s = some doc → Usual doc) : ∃ x, runtimeKey F rt = .ok x := by
  rw [runtimeKey]
  cases hj : F.json (cstr rt) with
  | none => exact ⟨_, rfl⟩
  | some doc =>
    obtain ⟨⟨l, rfl⟩, hk⟩ := h _ doc ((cstr_iff rt _).mp rfl) hj
    simp only
    obtain ⟨x, hx⟩ := member_obj l (Sev.str "keys")
    rw [hx, Out.bind_ok]
    rcases x with - | v
    · exact ⟨_, rfl⟩
    cases v with
    | arr ks =>
      simp only
      split
      · exact ⟨_, rfl⟩
      have hk := hk ks ((member_iff _ "keys" _).mp hx)
      obtain ⟨y, hy, hm⟩ := findAkPub_total ks fun k hm => (hk k hm).1
      rw [hy, Out.bind_ok]
      rcases y with - | key
      · exact ⟨_, rfl⟩
      obtain ⟨⟨lk, rfl⟩, hascii⟩ := hk key (hm key rfl)
      simp only
      obtain ⟨u, hu⟩ := memberStr_obj lk (Sev.str "e")
      rw [hu, Out.bind_ok]
      rcases u with - | te
      · exact ⟨_, rfl⟩
      simp only
      obtain ⟨w, hw⟩ := memberStr_obj lk (Sev.str "n")
      rw [hw, Out.bind_ok]
      rcases w with - | tn
      · exact ⟨_, rfl⟩
      simp only
      obtain ⟨x, hx, -⟩ := Props.Codec.C48_decode_safe_partial Props.Codec.Alphabet.url te (hascii te (Or.inl ((memberStr_iff _ "e" _).mp hu)))
      rw [hx, Out.bind_ok]
      rcases x with er | be'
      · exact ⟨_, rfl⟩
      simp only
      obtain ⟨x, hx, -⟩ := Props.Codec.C48_decode_safe_partial Props.Codec.Alphabet.url tn (hascii tn (Or.inr ((memberStr_iff _ "n" _).mp hw)))
      rw [hx, Out.bind_ok]
      rcases x with er | bn' <;> exact ⟨_, rfl⟩
    | _ => exact ⟨_, rfl⟩

theorem verifyTPM2_total (L : Lib) (ev : Evidence) : ∃ x, verifyTPM2 L ev = .ok x := by
  rw [verifyTPM2]
  obtain ⟨s, hs⟩ : ∃ s, Tpm2.sigParse ev.sig = .ok s := by
    rcases Tpm2.sigParse_good ev.sig with e | ⟨s, -, -, e⟩ <;> exact ⟨_, e⟩
  rw [hs, Out.bind_ok]
  rcases s with - | s
  · exact ⟨_, rfl⟩
  simp only
  rcases Tpm2.parse_good ev.msg with e | ⟨r, e, q, hq, hw, rfl⟩
  · rw [e]; exact ⟨_, rfl⟩
  rw [e, Out.bind_ok]
  simp only
  cases Tpm2.pcrsFromString ev.pcrs with
  | none => exact ⟨_, rfl⟩
  | some ps =>
    simp only
    cases L.d2i ev.akcert with
    | none => exact ⟨_, rfl⟩
    | some p =>
      simp only
      cases Tpm2.verifyReport L s (Tpm2.reportOf q) p.1 with
      | error er => exact ⟨_, rfl⟩
      | ok u =>
        simp only [Tpm2.Report.verifyPCRs, (Tpm2.reportOf_reads q hq).2.2, (Tpm2.reportOf_reads q hq).2.1, Out.bind_ok, Out.pure_eq]
        split <;> exact ⟨_, rfl⟩

/-- **C60 (in part).** Evidence and endorsements that are any bytes make `Attest` return, without undefined behaviour or a failed assertion, if
certificates under AMD's roots that are passed as the platform's are for elliptic curve keys, and if runtime data that an SNP report
commits to is of the usual form when it is JSON.

Missing: other certificates and JSON documents; for them it is false, see `C60_rsa_platform_certificate` and `C60_keys_that_are_no_objects`. -/
theorem C60_attest_returns_partial (L : Lib) (F : Formats) (amd roots : List L.Cert) (loc : List Bytes) (now : Int) (evidence endorsements : Bytes)
    (ec : ∀ en c n i m, F.endorsements endorsements = some en → L.d2i en.vcek = some (c, n) → L.d2i en.ask = some (i, m) →
      L.chain amd [i] c now = true → ∀ k, L.pub c = some k → ∃ e, k = .ec e)
    (usual : ∀ ev s doc, F.evidence evidence = some ev → (ev.snpReport.drop 80).take 32 = L.sha256 ev.runtimeData → CStr ev.runtimeData s →
      F.json s = some doc → Usual doc) :
    ∃ r, attest L F amd roots loc now evidence endorsements = .ok r := by
  rw [attest]
  cases h1 : F.evidence evidence with
  | none => exact ⟨_, rfl⟩
  | some ev =>
    cases h2 : F.endorsements endorsements with
    | none => exact ⟨_, rfl⟩
    | some en =>
      simp only
      have ak : ∃ x, verifyAKCert L F amd roots ev en now = .ok x := by
        rw [verifyAKCert]
        cases L.d2i ev.akcert with
        | none => exact ⟨_, rfl⟩
        | some p =>
          cases L.d2i en.intermediate with
          | none => exact ⟨_, rfl⟩
          | some p2 =>
            simp only
            split
            · exact ⟨_, rfl⟩
            have rep : ∃ x, Sev.reportFromVerifiedBuffer L amd ev.snpReport en.vcek en.ask now = .ok x := by
              rw [Sev.reportFromVerifiedBuffer]
              cases Sev.reportFromBuffer ev.snpReport with
              | error er => exact ⟨_, rfl⟩
              | ok r =>
                simp only
                split
                · rename_i c n i m hc hi
                  cases hp : L.pub c with
                  | none => exact ⟨_, rfl⟩
                  | some k =>
                    simp only
                    by_cases hch : L.chain amd [i] c now = false
                    · rw [if_pos hch]; exact ⟨_, rfl⟩
                    rw [if_neg hch]
                    obtain ⟨e, rfl⟩ := ec en c n i m h2 hc hi (by simpa using hch) k hp
                    simp only
                    split <;> exact ⟨_, rfl⟩
                · exact ⟨_, rfl⟩
            obtain ⟨x, hx⟩ := rep
            rw [hx, Out.bind_ok]
            rcases x with er | r
            · exact ⟨_, rfl⟩
            simp only
            obtain ⟨⟨l, t, hpre⟩, -⟩ := (verifiedReport_iff L amd _ _ _ now r).mp hx
            by_cases hd : ctEqBytes (L.sha256 ev.runtimeData) r.reportData 32 0 ≠ 0
            · rw [if_pos hd]; exact ⟨_, rfl⟩
            rw [if_neg hd]
            have hd := (reportData_iff L ev.runtimeData r l).mp (not_not.mp hd)
            have hd2 : (ev.snpReport.drop 80).take 32 = L.sha256 ev.runtimeData := by
              rw [← hpre, List.drop_append_of_le_length (by omega), List.take_append_of_le_length (by rw [List.length_drop]; omega), hd]
            obtain ⟨y, hy⟩ := runtimeKey_total F ev.runtimeData fun s doc hs hj => usual ev s doc h1 hd2 hs hj
            rw [hy, Out.bind_ok]
            rcases y with er | ⟨rte, rtn⟩
            · exact ⟨_, rfl⟩
            simp only
            split
            · split <;> exact ⟨_, rfl⟩
            · exact ⟨_, rfl⟩
      rw [completeVerification]
      obtain ⟨x, hx⟩ := ak
      rw [hx, Out.bind_ok]
      rcases x with er | v
      · exact ⟨_, rfl⟩
      simp only
      obtain ⟨y, hy⟩ := verifyTPM2_total L ev
      rw [hy, Out.bind_ok]
      rcases y with er | ⟨nonce, ps⟩
      · exact ⟨_, rfl⟩
      simp only
      split
      · exact ⟨_, rfl⟩
      split
      · exact ⟨_, rfl⟩
      cases L.parseData ev.attestationData <;> exact ⟨_, rfl⟩

/-! ## Cases -/

/-- A hash for the cases below. -/
def toyHash (b : Bytes) : Bytes := (padTo 32 b).take 32

theorem toyHash_length (b : Bytes) : (toyHash b).length = 32 := by
  simp [toyHash, padTo, zeros]; omega

/-- The registers of the machines of the cases. -/
def toyRegs : List Bytes := (List.range 24).map fun i => List.replicate 32 (UInt8.ofNat i)

def toyQuote : Quote :=
  { key := zeros 32, nonce := toyHash [1, 2, 3], millis := 1, resets := 1, restarts := 1, safe := 1, firmware := 1,
    digest := toyHash toyRegs.flatten }

/-- Certificates are one byte: 1 is the attestation key's, 2 its intermediate, 3 the platform's, 4 AMD's intermediate, which is for an RSA key
and which AMD's root certifies as well. -/
def toyLib : Lib where
  Cert := UInt8
  Ec := Unit
  Rsa := Unit
  sha256 := toyHash
  sha256_length := toyHash_length
  sha384 := id
  d2i b := match b with
    | [c] => some (c, 1)
    | _ => none
  chain roots inter c _ := match roots, inter, c with
    | [10], [2], 1 => true
    | [20], [4], 3 => true
    | [20], [4], 4 => true
    | _, _, _ => false
  pub c := match c with
    | 1 => some (.rsa ())
    | 3 => some (.ec ())
    | _ => some (.rsa ())
  ecdsa _ _ r _ := r == 5
  rsaVerify _ h s := s == List.replicate 256 6 && h == toyHash toyQuote.wire
  rsaE _ := 65537
  rsaN _ := 255
  parseData b := some ⟨b, OMap.empty⟩

def toyAmd : List toyLib.Cert := [(20 : UInt8)]
def toyRoots : List toyLib.Cert := [(10 : UInt8)]

/-- Two keys, of which the second is the attestation key. -/
def toyDoc : Json := .obj [(ascii "keys".toList, .arr [.obj [(ascii "kid".toList, .str (ascii "HCLEkPub".toList))],
  .obj [(ascii "kid".toList, .str (ascii "HCLAkPub".toList)), (ascii "kty".toList, .str (ascii "RSA".toList)),
    (ascii "e".toList, .str (ascii "AQAB".toList)), (ascii "n".toList, .str (ascii "_w".toList))]])]

/-- A report whose policy allows both debugging and migration, of version 0, that commits to the runtime data "{}", with `r` being 5. -/
def laxReport : Bytes := zeros 8 ++ [0, 0, 0x0c] ++ zeros 69 ++ toyHash [123, 125] ++ zeros (672 - 112) ++ [5] ++ zeros 511

def toyEvidence : Evidence :=
  { attestationData := [1, 2, 3], pcrs := toyRegs.flatten, msg := toyQuote.wire, sig := sigWire (List.replicate 256 6), snpReport := laxReport,
    runtimeData := [123, 125], akcert := [1] }

/-- Evidence that the parser returns whatever it is given, a document, and the platform's certificate. -/
def toyFormats (doc : Json) (vcek : Bytes) : Formats where
  json _ := some doc
  evidence _ := some toyEvidence
  endorsements _ := some ⟨[2], vcek, [4]⟩

/-- **C57 is false of the code.** `Attest` accepts evidence whose SNP report has a policy that allows debugging and migration and a version that
the code is not made for: nothing on the way calls `ValidateReport`. -/
theorem C57_lax_guests_are_accepted :
    Lax laxReport ∧ laxReport <+: toyEvidence.snpReport ∧
    (attest toyLib (toyFormats toyDoc [3]) toyAmd toyRoots toyRegs 0 [] [] matches .ok (.ok _)) = true := by
  refine ⟨Or.inl (by decide +kernel), List.prefix_rfl, by decide +kernel⟩

/-- **C60 is false of the code.** Passing AMD's intermediate certificate, which is for an RSA key, as that of the platform makes
`ReportFromVerifiedBuffer` dereference a null pointer. -/
theorem C60_rsa_platform_certificate : attest toyLib (toyFormats toyDoc [4]) toyAmd toyRoots toyRegs 0 [] [] = .ub := by
  have : (attest toyLib (toyFormats toyDoc [4]) toyAmd toyRoots toyRegs 0 [] [] matches .ub) = true := by decide +kernel
  generalize attest toyLib (toyFormats toyDoc [4]) toyAmd toyRoots toyRegs 0 [] [] = x at this
  cases x <;> simp at this ⊢

/-- **C60 is false of the code.** Runtime data whose keys are not objects fails an assertion of the JSON library. -/
theorem C60_keys_that_are_no_objects :
    attest toyLib (toyFormats (.obj [(ascii "keys".toList, .arr [.num 1])]) [3]) toyAmd toyRoots toyRegs 0 [] [] = .abort := by
  have : (attest toyLib (toyFormats (.obj [(ascii "keys".toList, .arr [.num 1])]) [3]) toyAmd toyRoots toyRegs 0 [] [] matches .abort) = true := by
    decide +kernel
  generalize attest toyLib _ toyAmd toyRoots toyRegs 0 [] [] = x at this
  cases x <;> simp at this ⊢

-- with another register that matters the evidence is rejected, and with another one that does not (5) it is accepted
example : (attest toyLib (toyFormats toyDoc [3]) toyAmd toyRoots (toyRegs.set 4 (zeros 32)) 0 [] [] matches .ok (.error .pcrs)) = true := by
  decide +kernel
example : (attest toyLib (toyFormats toyDoc [3]) toyAmd toyRoots (toyRegs.set 5 (zeros 32)) 0 [] [] matches .ok (.ok _)) = true := by
  decide +kernel

/-- The assumptions of `C56_key_was_quoted_by_the_same_software` are met in this case. -/
example : ∃ (d : Data) (Made : toyLib.Rsa → Quote → List Bytes → Prop),
    (∀ k q regs, Made k q regs → q.Wf ∧ regs.length = 24 ∧ (∀ p ∈ regs, p.length = 32) ∧ q.digest = toyLib.sha256 regs.flatten) ∧
    (∀ c i k, toyLib.chain toyRoots [i] c 0 = true → toyLib.pub c = some (.rsa k) → ∀ h s, toyLib.rsaVerify k h s = true →
      ∃ q regs, Made k q regs ∧ h = toyLib.sha256 q.wire) ∧
    attest toyLib (toyFormats toyDoc [3]) toyAmd toyRoots toyRegs 0 [] [] = .ok (.ok d) := by
  have acc := C57_lax_guests_are_accepted.2.2
  cases h : attest toyLib (toyFormats toyDoc [3]) toyAmd toyRoots toyRegs 0 [] [] with
  | ok x =>
    rw [h] at acc
    rcases x with e | d
    · simp at acc
    refine ⟨d, fun _ q regs => q = toyQuote ∧ regs = toyRegs, ?_, ?_, rfl⟩
    · rintro k q regs ⟨rfl, rfl⟩
      exact ⟨⟨by decide, by decide, by decide⟩, by decide, by decide, rfl⟩
    · intro c i k _ _ hh s hv
      have hv : (s == List.replicate 256 6 && hh == toyHash toyQuote.wire) = true := hv
      rw [Bool.and_eq_true] at hv
      exact ⟨toyQuote, toyRegs, ⟨rfl, rfl⟩, eq_of_beq hv.2⟩
  | abort => rw [h] at acc; simp at acc
  | ub => rw [h] at acc; simp at acc

/-- The assumptions of `C60_attest_returns_partial` are met in the case above with the platform's certificate. -/
example : ∃ r, attest toyLib (toyFormats (.obj []) [3]) toyAmd toyRoots toyRegs 0 [] [] = .ok r := by
  refine C60_attest_returns_partial toyLib _ toyAmd toyRoots toyRegs 0 [] [] ?_ ?_
  · rintro en c n i m h1 h2 - - k hk
    obtain rfl : (⟨[2], [3], [4]⟩ : Endorsements) = en := by simpa [toyFormats] using h1
    have h2 : some ((3 : UInt8), 1) = some (c, n) := h2
    obtain ⟨rfl, rfl⟩ := Prod.mk.inj (Option.some.inj h2)
    have hk : some (Pub.ec ()) = some k := hk
    exact ⟨(), (Option.some.inj hk).symm⟩
  · intro ev s doc _ _ _ hj
    obtain rfl : Json.obj [] = doc := by simpa [toyFormats] using hj
    refine ⟨⟨[], rfl⟩, ?_⟩
    rintro ks ⟨pre, post, h, -⟩
    simp at h

end Svr.Props.Tpm2Snp
