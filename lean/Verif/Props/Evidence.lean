import Verif.Attest.Make
import Verif.Props.Tpm2Snp
import Verif.Props.Nitro
import Verif.Props.Sgx
import Verif.Props.Codec

/-!
# C77: evidence that a started enclave makes is accepted by its like

C56, C59 and C61 say that nothing else is accepted; this is the other direction, for evidence as `Evidence` makes it and a machine that `Init` has
let start. What an honest TPM, security module or OpenEnclave does is said by `FileOf`, `Quotes`, `Tpm`, `Tool`, `Module` and `Enclave` below.
-/

namespace Svr.Props.Evidence

open Svr Svr.Attest Svr.Attest.Make Svr.Spec
open Tpm2Snp (Evidence Endorsements Formats)

attribute [local irreducible] Sev.minimumsFromReport Minimums.combineValues

/-! ## Files -/

/-- A sequence of reads without an error that comes to the end of the file, and what it gives. -/
def Reading (reads : List (Option Bytes)) (c : Bytes) : Prop :=
  ∃ (parts : List Bytes) (rest : List (Option Bytes)), (∀ p ∈ parts, p ≠ []) ∧ reads = parts.map some ++ rest ∧ (rest = [] ∨ ∃ r, rest = some [] :: r) ∧ c = parts.flatten

theorem readAll_iff (reads : List (Option Bytes)) (out c : Bytes) :
    readAll reads out = .ok c ↔ ∃ t, Reading reads t ∧ c = out ++ t := by
  induction reads generalizing out with
  | nil =>
    rw [readAll]
    constructor
    · rintro h
      exact ⟨[], ⟨[], [], by simp, rfl, .inl rfl, rfl⟩, by simpa using h.symm⟩
    · rintro ⟨t, ⟨parts, rest, -, h, -, rfl⟩, rfl⟩
      obtain ⟨h, -⟩ := List.append_eq_nil_iff.mp h.symm
      rw [List.map_eq_nil_iff.mp h]
      simp
  | cons x l ih =>
    match x with
    | none =>
      rw [readAll]
      constructor
      · intro h; simp at h
      · rintro ⟨t, ⟨parts, rest, -, h, hr, -⟩, -⟩
        cases parts with
        | nil =>
          rcases hr with rfl | ⟨r, rfl⟩ <;> simp at h
        | cons p ps => simp at h
    | some [] =>
      rw [readAll]
      constructor
      · intro h
        exact ⟨[], ⟨[], _, by simp, rfl, .inr ⟨l, rfl⟩, rfl⟩, by simpa using h.symm⟩
      · rintro ⟨t, ⟨parts, rest, hp, h, hr, rfl⟩, rfl⟩
        cases parts with
        | nil => simp
        | cons p ps =>
          simp only [List.map_cons, List.cons_append, List.cons.injEq, Option.some.injEq] at h
          exact absurd h.1.symm (hp p (by simp))
    | some (b :: bs) =>
      rw [readAll, ih]
      constructor
      · rintro ⟨t, ⟨parts, rest, hp, rfl, hr, rfl⟩, rfl⟩
        refine ⟨_, ⟨(b :: bs) :: parts, rest, ?_, rfl, hr, rfl⟩, by simp⟩
        intro p h
        rcases List.mem_cons.mp h with rfl | h
        · simp
        · exact hp p h
      · rintro ⟨t, ⟨parts, rest, hp, h, hr, rfl⟩, rfl⟩
        cases parts with
        | nil => rcases hr with rfl | ⟨r, rfl⟩ <;> simp at h
        | cons p ps =>
          simp only [List.map_cons, List.cons_append, List.cons.injEq, Option.some.injEq] at h
          obtain ⟨rfl, rfl⟩ := h
          exact ⟨ps.flatten, ⟨ps, rest, fun p h => hp p (List.mem_cons_of_mem _ h), rfl, hr, rfl⟩, by simp⟩

/-- **C77.** `FileContents` returns exactly what the reads gave up to the end of the file, in order, and fails if one of them failed before that or the
file could not be opened. -/
theorem C77_file_contents (f : File) (c : Bytes) : f.contents = .ok c ↔ 0 < f.fd ∧ Reading f.reads c := by
  rw [File.contents]
  by_cases h : f.fd ≤ 0
  · rw [if_pos h]
    constructor
    · intro h; simp at h
    · rintro ⟨h2, -⟩; omega
  · rw [if_neg h, readAll_iff]
    simp only [List.nil_append]
    constructor
    · rintro ⟨t, ht, rfl⟩; exact ⟨by omega, ht⟩
    · rintro ⟨-, ht⟩; exact ⟨c, ht, rfl⟩

example : (File.mk 3 [some [1, 2], some [3], some [], some [4]]).contents = .ok [1, 2, 3] := rfl
-- with standard input closed, `open` may return 0, which is taken for an error
example : (File.mk 0 [some [1, 2], some []]).contents = .error .openFile := rfl

/-- All readings of a file to its end without an error give the same. -/
def FileOf (f : File) (c : Bytes) : Prop := ∀ t, Reading f.reads t → t = c

theorem FileOf.eq {f : File} {c t : Bytes} (h : FileOf f c) (e : f.contents = .ok t) : t = c := h t ((C77_file_contents f t).mp e).2

/-! ## Machines with a TPM -/

/-- A TPM with the key `k` and the registers `regs` quoted them for a nonce. -/
def Quotes (L : Lib) (k : L.Rsa) (regs : List Bytes) (nonce msg sig pcrs : Bytes) : Prop :=
  ∃ (q : Quote) (s : Bytes), q.Wf ∧ msg = q.wire ∧ q.nonce = nonce ∧ q.digest = L.sha256 regs.flatten ∧ pcrs = regs.flatten ∧ s.length = 256 ∧ sig = sigWire s ∧
    L.rsaVerify k (L.sha256 q.wire) s = true

/-- The size of registers. -/
def Registers (regs : List Bytes) : Prop := regs.length = 24 ∧ ∀ p ∈ regs, p.length = 32

/-- `tpm2_quote`, when it succeeds, writes what the TPM quoted for the nonce of 32 bytes in its arguments. -/
def Tpm (L : Lib) (k : L.Rsa) (regs : List Bytes) (quote : Bytes → Option Quoted) : Prop :=
  ∀ nonce text o, nonce.length = 32 → Codec.Spells text nonce → quote text = some o →
    ∃ msg sig pcrs, FileOf o.msg msg ∧ FileOf o.sig sig ∧ FileOf o.pcrs pcrs ∧ Quotes L k regs nonce msg sig pcrs

/-- `svr3gcp`, when it succeeds, writes what the TPM quoted for the nonce of 32 bytes in its arguments, and the certificate of the TPM's key. -/
def Tool (L : Lib) (F : Formats) (k : L.Rsa) (regs : List Bytes) (akcert : Bytes) (tool : Bytes → Option (File × File)) : Prop :=
  ∀ nonce text o, nonce.length = 32 → Codec.Spells text nonce → tool text = some o →
    ∃ b msg sig pcrs, FileOf o.1 b ∧ F.evidence b = some ⟨[], pcrs, msg, sig, [], [], akcert⟩ ∧ Quotes L k regs nonce msg sig pcrs

/-- What protobuf writes it reads. -/
def Reads (F : Formats) (S : Wire) : Prop := (∀ e, F.evidence (S.evidence e) = some e) ∧ ∀ e, F.endorsements (S.endorsements e) = some e

/-- The certificates of a machine are valid, and that of the attestation key is for `k`. -/
structure Valid (L : Lib) (amd roots : List L.Cert) (now : Int) (k : L.Rsa) (A : Env) : Prop where
  key : ∀ c n, L.d2i A.evidence.akcert = some (c, n) → L.pub c = some (.rsa k)
  ak : ∀ c n i m, L.d2i A.evidence.akcert = some (c, n) → L.d2i A.endorsements.intermediate = some (i, m) → L.chain roots [i] c now = true
  platform : ∀ c n i m, L.d2i A.endorsements.vcek = some (c, n) → L.d2i A.endorsements.ask = some (i, m) → L.chain amd [i] c now = true

/-- What a started machine has: evidence for empty attestation data that showed all it has to at the time of the start. -/
def Started (L : Lib) (F : Formats) (amd roots : List L.Cert) (start : Int) (A : Env) : Prop :=
  ∃ ev k r q ps, Shows L F amd roots start ev A.endorsements k r q ps ∧ ev.attestationData = [] ∧ ev.snpReport = A.evidence.snpReport ∧
    ev.runtimeData = A.evidence.runtimeData ∧ ev.akcert = A.evidence.akcert ∧ ∀ i ∈ sameRegisters, A.loc[i]? = ps[i]?

theorem orDie_ok {ε α β : Type} {x : Except ε α} {f : α → Out β} {b : β} : orDie x f = .ok b ↔ ∃ a, x = .ok a ∧ f a = .ok b := by
  cases x <;> simp [orDie]

theorem andThen_ok {α β : Type} {x : Except MErr α} {f : α → Out (Except MErr β)} {b : β} :
    andThen x f = .ok (.ok b) ↔ ∃ a, x = .ok a ∧ f a = .ok (.ok b) := by
  cases x <;> simp [andThen]

theorem loc_length {b : Bytes} {loc : List Bytes} (h : Tpm2.pcrsFromString b = some loc) : loc.length = 24 := ((Tpm2.pcrs_iff _ _).mp h).1

theorem azureCurrent_ok {L : Lib} {run : QuoteRun} {base ev : Evidence} {serialized : Bytes}
    (h : azureCurrent L run base serialized = .ok (.ok ev)) :
    ∃ text o msg sig pcrs, Codec.Spells text (L.sha256 serialized) ∧ run.quote text = some o ∧ o.msg.contents = .ok msg ∧
      o.sig.contents = .ok sig ∧ o.pcrs.contents = .ok pcrs ∧
      ev = { base with attestationData := serialized, pcrs := pcrs, msg := msg, sig := sig } := by
  rw [azureCurrent] at h
  split at h
  · simp at h
  obtain ⟨text, ht, hs, -⟩ := Codec.hexEnc_spells (L.sha256 serialized)
  rw [ht, Out.bind_ok] at h
  split at h
  · simp at h
  rename_i o ho
  obtain ⟨msg, h1, h⟩ := andThen_ok.mp h
  obtain ⟨sig, h2, h⟩ := andThen_ok.mp h
  obtain ⟨pcrs, h3, h⟩ := andThen_ok.mp h
  simp only [Out.ok.injEq, Except.ok.injEq] at h
  exact ⟨text, o, msg, sig, pcrs, hs, ho, h1, h2, h3, h.symm⟩

theorem azureEvidence_ok {L : Lib} {S : Wire} {run : QuoteRun} {A : Env} {serialized : Bytes} {a : Bytes × Bytes}
    (h : azureEvidence L S run A serialized = .ok (.ok a)) :
    ∃ ev, azureCurrent L run A.evidence serialized = .ok (.ok ev) ∧ a = (S.evidence ev, S.endorsements A.endorsements) := by
  rw [azureEvidence] at h
  obtain ⟨x, h1, h⟩ := Out.bind_eq_ok.mp h
  rcases x with e | ev
  · simp at h
  · simp only [Out.ok.injEq, Except.ok.injEq] at h
    exact ⟨ev, h1, h.symm⟩

theorem gcpTool_ok {F : Formats} {run : ToolRun} {nonce : Bytes} {both : Bool} {a : Evidence × Endorsements}
    (h : gcpTool F run nonce both = .ok (.ok a)) :
    ∃ text o b, Codec.Spells text nonce ∧ run.tool text = some o ∧ o.1.contents = .ok b ∧ F.evidence b = some a.1 := by
  rw [gcpTool] at h
  split at h
  · simp at h
  obtain ⟨text, ht, hs, -⟩ := Codec.hexEnc_spells nonce
  rw [ht, Out.bind_ok] at h
  split at h
  · simp at h
  rename_i o ho
  obtain ⟨b, h1, h⟩ := andThen_ok.mp h
  split at h
  · simp at h
  rename_i ev hev
  split at h
  · simp only [Out.ok.injEq, Except.ok.injEq] at h
    exact ⟨text, o, b, hs, ho, h1, by rw [hev, ← h]⟩
  · obtain ⟨b2, h2, h⟩ := andThen_ok.mp h
    split at h
    · simp at h
    · simp only [Out.ok.injEq, Except.ok.injEq] at h
      exact ⟨text, o, b, hs, ho, h1, by rw [hev, ← h]⟩

theorem gcpEvidence_ok {L : Lib} {F : Formats} {S : Wire} {run : ToolRun} {A : Env} {serialized : Bytes} {a : Bytes × Bytes}
    (h : gcpEvidence L F S run A serialized = .ok (.ok a)) :
    ∃ cur, gcpTool F run (L.sha256 serialized) false = .ok (.ok cur) ∧
      a = (S.evidence { merge A.evidence cur.1 with attestationData := serialized }, S.endorsements A.endorsements) := by
  rw [gcpEvidence] at h
  obtain ⟨x, h1, h⟩ := Out.bind_eq_ok.mp h
  rcases x with e | ⟨cur, en⟩
  · simp at h
  · simp only [Out.ok.injEq, Except.ok.injEq] at h
    exact ⟨_, h1, h.symm⟩

theorem fatal_ok {lvl : Int} (h : 1 ≤ lvl) : Log.fatal lvl = .abort := if_pos h

theorem orLog_ok {ε α β : Type} {lvl : Int} (h : 1 ≤ lvl) {x : Except ε α} {left : α} {f : α → Out β} {b : β} :
    orLog lvl x left f = .ok b ↔ ∃ a, x = .ok a ∧ f a = .ok b := by
  cases x <;> simp [orLog, fatal_ok h]

theorem unless_ok {lvl : Int} (h : 1 ≤ lvl) {c : Prop} [Decidable c] {u : Unit} (e : (if c then Log.fatal lvl else .ok ()) = .ok u) : ¬ c := by
  intro hc
  rw [if_pos hc, fatal_ok h] at e
  cases e

theorem ownPcrs_ok {lvl : Int} (h : 1 ≤ lvl) {pcrs : Option Bytes} {junk loc : List Bytes} (e : ownPcrs lvl pcrs junk = .ok loc) :
    loc.length = 24 := by
  rw [ownPcrs] at e
  split at e
  · rw [fatal_ok h] at e; cases e
  · rename_i l hl
    cases e
    obtain ⟨b, -, hb⟩ := Option.bind_eq_some_iff.mp hl
    exact loc_length hb

theorem selfCheck_ok {L : Lib} {F : Formats} {amd roots : List L.Cert} {lvl now : Int} {A B : Env} {x : Except MErr (Bytes × Bytes)} (hl : 1 ≤ lvl)
    (h : selfCheck L F amd roots lvl now A x = .ok B) :
    B = A ∧ ∃ a d, x = .ok a ∧ Tpm2Snp.attest L F amd roots A.loc now a.1 a.2 = .ok (.ok d) := by
  unfold selfCheck at h
  split at h
  · rw [fatal_ok hl] at h; cases h
  · rename_i a
    obtain ⟨y, h1, h⟩ := Out.bind_eq_ok.mp h
    split at h
    · rw [fatal_ok hl] at h; cases h
    · rename_i d
      cases h
      exact ⟨rfl, a, d, rfl, h1⟩

/-- **C77, part.** `Init` on Azure, as long as fatal lines are logged, comes to its end only if each command succeeded in one of six tries, its members
are what the files hold, and evidence that it made then showed all that it has to, with registers like the own ones. Without the assumption on the level
this is false: `C77_started_false`. -/
theorem C77_azure_started_partial (L : Lib) (F : Formats) (amd roots : List L.Cert) (S : Wire) (laws : Reads F S) (w : AzureWorld) (lvl start : Int)
    (logs : 1 ≤ lvl) (A : Env) (init : azureInit L F amd roots S w lvl start = .ok A) :
    (∀ c ∈ w.commands, ∃ i < 6, c i = true) ∧ A.loc.length = 24 ∧ w.akcert.contents = .ok A.evidence.akcert ∧
    w.intermediate.contents = .ok A.endorsements.intermediate ∧ w.vcek.contents = .ok A.endorsements.vcek ∧
    w.ask.contents = .ok A.endorsements.ask ∧ Started L F amd roots start A := by
  rw [azureInit] at init
  obtain ⟨_, -, init⟩ := Out.bind_eq_ok.mp init
  obtain ⟨_, hc, init⟩ := Out.bind_eq_ok.mp init
  have hc := unless_ok logs hc
  obtain ⟨report, -, init⟩ := (orLog_ok logs).mp init
  obtain ⟨akcert, g1, init⟩ := (orLog_ok logs).mp init
  obtain ⟨intermediate, g2, init⟩ := (orLog_ok logs).mp init
  obtain ⟨vcek, g3, init⟩ := (orLog_ok logs).mp init
  obtain ⟨ask, g4, init⟩ := (orLog_ok logs).mp init
  obtain ⟨snp, -, init⟩ := (orLog_ok logs).mp init
  obtain ⟨runtime, -, init⟩ := (orLog_ok logs).mp init
  obtain ⟨x, -, init⟩ := Out.bind_eq_ok.mp init
  obtain ⟨loc, hl, init⟩ := Out.bind_eq_ok.mp init
  have hl := ownPcrs_ok logs hl
  obtain ⟨y, h1, h2⟩ := Out.bind_eq_ok.mp init
  obtain ⟨rfl, a, d, rfl, h3⟩ := selfCheck_ok logs h2
  obtain ⟨ev, h4, rfl⟩ := azureEvidence_ok h1
  obtain ⟨_, _, msg, sig, pcrs, -, -, -, -, -, rfl⟩ := azureCurrent_ok h4
  refine ⟨?_, hl, g1, g2, g3, g4, ?_⟩
  · simpa using hc
  · obtain ⟨ev, en, k, r, q, ps, d0, e1, e2, sh, hp, -⟩ :=
      (Tpm2Snp.C56_accepts_exactly L F amd roots _ hl start _ _ d).mp h3
    rw [laws.1, Option.some.injEq] at e1
    rw [laws.2, Option.some.injEq] at e2
    subst e1 e2
    exact ⟨_, k, r, q, ps, sh, rfl, rfl, rfl, rfl, hp⟩

/-- **C77, part.** `Init` on GCP, as long as fatal lines are logged, comes to its end only if evidence that it made then showed all that it has to, with
registers like the own ones, given that the tool writes the same certificate each time and leaves to the caller what does not come from the TPM. -/
theorem C77_gcp_started_partial (L : Lib) (F : Formats) (amd roots : List L.Cert) (S : Wire) (laws : Reads F S) (w : GcpWorld) (lvl start : Int)
    (logs : 1 ≤ lvl) (A : Env) (init : gcpInit L F amd roots S w lvl start = .ok A) (k : L.Rsa) (regs : List Bytes)
    (tool : Tool L F k regs A.evidence.akcert w.second.tool) :
    A.loc.length = 24 ∧ Started L F amd roots start A := by
  rw [gcpInit] at init
  obtain ⟨x, -, init⟩ := Out.bind_eq_ok.mp init
  obtain ⟨⟨ev0, en0⟩, -, init⟩ := (orLog_ok logs).mp init
  simp only at init
  obtain ⟨y, -, init⟩ := Out.bind_eq_ok.mp init
  obtain ⟨runtime, -, init⟩ := (orLog_ok logs).mp init
  obtain ⟨z, -, init⟩ := Out.bind_eq_ok.mp init
  obtain ⟨⟨report, sev⟩, -, init⟩ := (orLog_ok logs).mp init
  simp only at init
  obtain ⟨loc, hl, init⟩ := Out.bind_eq_ok.mp init
  have hl := ownPcrs_ok logs hl
  obtain ⟨y, h1, h2⟩ := Out.bind_eq_ok.mp init
  obtain ⟨rfl, a, d, rfl, h3⟩ := selfCheck_ok logs h2
  obtain ⟨cur, h4, rfl⟩ := gcpEvidence_ok h1
  obtain ⟨text, o, b, s1, s2, s3, s4⟩ := gcpTool_ok h4
  obtain ⟨b', msg, sig, pcrs, f1, f2, f3⟩ := tool _ text o (L.sha256_length _) s1 s2
  obtain rfl := f1.eq s3
  rw [f2, Option.some.injEq] at s4
  refine ⟨hl, ?_⟩
  obtain ⟨ev, en, k, r, q, ps, d0, e1, e2, sh, hp, -⟩ :=
    (Tpm2Snp.C56_accepts_exactly L F amd roots _ hl start _ _ d).mp h3
  rw [laws.1, Option.some.injEq] at e1
  rw [laws.2, Option.some.injEq] at e2
  subst e1 e2
  refine ⟨_, k, r, q, ps, sh, rfl, ?_, ?_, ?_, hp⟩
  · simp [merge, mergeField, ← s4]
  · simp [merge, mergeField, ← s4]
  · simp [merge, mergeField, ← s4]

/-- Evidence that differs from what was shown at the start in what the TPM quoted. -/
theorem shows_of_started {L : Lib} {F : Formats} {amd roots : List L.Cert} {start now : Int} {A : Env} {k : L.Rsa}
    (st : Started L F amd roots start A) (valid : Valid L amd roots now k A) {regs : List Bytes} (wf : Registers regs)
    {serialized msg sig pcrs : Bytes} (hq : Quotes L k regs (L.sha256 serialized) msg sig pcrs) :
    ∃ r q, r.length = 1184 ∧ r <+: A.evidence.snpReport ∧
      Shows L F amd roots now { A.evidence with attestationData := serialized, pcrs := pcrs, msg := msg, sig := sig } A.endorsements k r q regs := by
  obtain ⟨ev, k', r, q', ps, sh, -, e1, e2, e3, -⟩ := st
  obtain ⟨q, s, h1, h2, h3, h4, h5, h6, h7, h8⟩ := hq
  obtain ⟨c, n, a1, a2, i, m, a3, -⟩ := sh.ak
  rw [e3] at a1
  have hk := valid.key c n a1
  rw [a2] at hk
  obtain rfl : k' = k := by simpa using hk
  obtain ⟨c', n', e', b1, b2, ⟨i', m', b3, -⟩, b4⟩ := sh.platform
  have hr := sh.report
  rw [e1] at hr
  refine ⟨r, q, hr.1, hr.2, ⟨c, n, a1, a2, i, m, a3, valid.ak c n i m a1 a3⟩, ⟨c', n', e', b1, b2, ⟨i', m', b3, valid.platform _ _ _ _ b1 b3⟩, b4⟩,
    hr, ?_, ?_, h1, h2, ⟨s, h6, h7, h8⟩, ⟨wf.1, wf.2, h5, h4⟩, h3⟩
  · have := sh.commits
    rwa [e2] at this
  · have := sh.names
    rwa [e2] at this

/-- The values that accepted evidence has: those of a report, or the lower ones that the attestation data says. -/
def Gives (A : Env) (d0 d : Data) : Prop :=
  d.key = d0.key ∧ ∃ r, r.length = 1184 ∧ r <+: A.evidence.snpReport ∧
    ∀ name, d.values.find name = lowerValue (reportValue r name) (d0.values.find name)

theorem accepted {L : Lib} {F : Formats} {amd roots : List L.Cert} {S : Wire} (laws : Reads F S) {start now : Int} {A : Env} {k : L.Rsa}
    (st : Started L F amd roots start A) (valid : Valid L amd roots now k A) {regs : List Bytes} (wf : Registers regs)
    {serialized msg sig pcrs : Bytes} (hq : Quotes L k regs (L.sha256 serialized) msg sig pcrs) {d0 : Data}
    (hd : L.parseData serialized = some d0) {loc : List Bytes} (hloc : loc.length = 24) (same : ∀ i ∈ sameRegisters, loc[i]? = regs[i]?) :
    ∃ d, Tpm2Snp.attest L F amd roots loc now
      (S.evidence { A.evidence with attestationData := serialized, pcrs := pcrs, msg := msg, sig := sig }) (S.endorsements A.endorsements) =
        .ok (.ok d) ∧ Gives A d0 d := by
  obtain ⟨r, q, l, pre, sh⟩ := shows_of_started st valid wf hq
  refine ⟨{ d0 with values := Minimums.combineValues (Minimums.combineValues (Sev.minimumsFromReport ⟨r⟩) OMap.empty) d0.values }, ?_, rfl, r, l,
    pre, fun name => Tpm2Snp.values_find r d0.values name⟩
  exact (Tpm2Snp.C56_accepts_exactly L F amd roots loc hloc now _ _ _).mpr
    ⟨_, _, k, r, q, regs, d0, laws.1 _, laws.2 _, sh, same, hd, rfl, fun name => Tpm2Snp.values_find r d0.values name⟩

/-- **C77, Azure, part.** Evidence that a machine makes that was started while fatal lines were logged is accepted by every machine whose registers agree where it matters, as long as the
certificates are valid, and gives the attestation data, with the values of its SNP report. -/
theorem C77_azure_accepted_partial (L : Lib) (F : Formats) (amd roots : List L.Cert) (S : Wire) (laws : Reads F S) (w : AzureWorld) (lvl start : Int)
    (logs : 1 ≤ lvl) (A : Env) (init : azureInit L F amd roots S w lvl start = .ok A) (now : Int) (k : L.Rsa) (valid : Valid L amd roots now k A)
    (run : QuoteRun) (regs : List Bytes) (wf : Registers regs) (tpm : Tpm L k regs run.quote)
    (serialized : Bytes) (d0 : Data) (hd : L.parseData serialized = some d0) (evidence endorsements : Bytes)
    (made : azureEvidence L S run A serialized = .ok (.ok (evidence, endorsements)))
    (loc : List Bytes) (hloc : loc.length = 24) (same : ∀ i ∈ sameRegisters, loc[i]? = regs[i]?) :
    ∃ d, Tpm2Snp.attest L F amd roots loc now evidence endorsements = .ok (.ok d) ∧ Gives A d0 d := by
  obtain ⟨-, -, -, -, -, -, st⟩ := C77_azure_started_partial L F amd roots S laws w lvl start logs A init
  obtain ⟨ev, h1, h2⟩ := azureEvidence_ok made
  obtain ⟨text, o, msg, sig, pcrs, s1, s2, s3, s4, s5, rfl⟩ := azureCurrent_ok h1
  obtain ⟨msg', sig', pcrs', f1, f2, f3, hq⟩ := tpm _ text o (L.sha256_length _) s1 s2
  obtain rfl := f1.eq s3
  obtain rfl := f2.eq s4
  obtain rfl := f3.eq s5
  simp only [Prod.mk.injEq] at h2
  rw [h2.1, h2.2]
  exact accepted laws st valid wf hq hd hloc same

/-- **C77, GCP, part.** Evidence that a machine makes that was started while fatal lines were logged is accepted by every machine whose registers agree where it matters, as long as the
certificates are valid, and gives the attestation data, with the values of its SNP report. -/
theorem C77_gcp_accepted_partial (L : Lib) (F : Formats) (amd roots : List L.Cert) (S : Wire) (laws : Reads F S) (w : GcpWorld) (lvl start : Int)
    (logs : 1 ≤ lvl) (A : Env) (init : gcpInit L F amd roots S w lvl start = .ok A) (now : Int) (k : L.Rsa) (valid : Valid L amd roots now k A)
    (regs0 : List Bytes) (tool0 : Tool L F k regs0 A.evidence.akcert w.second.tool)
    (run : ToolRun) (regs : List Bytes) (wf : Registers regs) (tool : Tool L F k regs A.evidence.akcert run.tool)
    (serialized : Bytes) (d0 : Data) (hd : L.parseData serialized = some d0) (evidence endorsements : Bytes)
    (made : gcpEvidence L F S run A serialized = .ok (.ok (evidence, endorsements)))
    (loc : List Bytes) (hloc : loc.length = 24) (same : ∀ i ∈ sameRegisters, loc[i]? = regs[i]?) :
    ∃ d, Tpm2Snp.attest L F amd roots loc now evidence endorsements = .ok (.ok d) ∧ Gives A d0 d := by
  obtain ⟨-, st⟩ := C77_gcp_started_partial L F amd roots S laws w lvl start logs A init k regs0 tool0
  obtain ⟨cur, h1, h2⟩ := gcpEvidence_ok made
  obtain ⟨text, o, b, s1, s2, s3, s4⟩ := gcpTool_ok h1
  obtain ⟨b', msg, sig, pcrs, f1, f2, hq⟩ := tool _ text o (L.sha256_length _) s1 s2
  obtain rfl := f1.eq s3
  rw [f2, Option.some.injEq] at s4
  simp only [Prod.mk.injEq] at h2
  rw [h2.1, h2.2, ← s4]
  have hm : ({ merge A.evidence ⟨[], pcrs, msg, sig, [], [], A.evidence.akcert⟩ with attestationData := serialized } : Evidence) =
      { A.evidence with attestationData := serialized, pcrs := pcrs, msg := msg, sig := sig } := by
    obtain ⟨q, s, a1, a2, a3, a4, a5, a6, a7, -⟩ := hq
    have n1 : msg ≠ [] := by
      intro e
      have := Tpm2.wire_length q a1
      rw [← a2, e] at this
      simp at this
    have n2 : sig ≠ [] := by
      intro e
      have := Tpm2.sigParse_wire s a6
      rw [← a7, e] at this
      simp [Tpm2.sigParse] at this
    have n3 : pcrs ≠ [] := by
      intro e
      have := (Tpm2.pcrs_iff pcrs regs).mpr ⟨wf.1, wf.2, a5.symm⟩
      rw [e] at this
      simp [Tpm2.pcrsFromString] at this
    simp [merge, mergeField, n1, n2, n3]
  rw [hm]
  exact accepted laws st valid wf hq hd hloc same

/-- **C77.** Whatever its commands do, `Evidence` on Azure and GCP returns. -/
theorem C77_evidence_returns (L : Lib) (F : Formats) (S : Wire) (A : Env) (serialized : Bytes) (q : QuoteRun) (t : ToolRun) :
    (∃ x, azureEvidence L S q A serialized = .ok x) ∧ ∃ x, gcpEvidence L F S t A serialized = .ok x := by
  obtain ⟨text, ht, -⟩ := Codec.hexEnc_spells (L.sha256 serialized)
  constructor
  · have : ∃ x, azureCurrent L q A.evidence serialized = .ok x := by
      rw [azureCurrent, ht, Out.bind_ok]
      split
      · exact ⟨_, rfl⟩
      split
      · exact ⟨_, rfl⟩
      rename_i o _
      cases o.msg.contents with
      | error e => exact ⟨_, rfl⟩
      | ok a =>
        cases o.sig.contents with
        | error e => exact ⟨_, rfl⟩
        | ok b =>
          cases o.pcrs.contents <;> exact ⟨_, rfl⟩
    obtain ⟨x, hx⟩ := this
    rw [azureEvidence, hx, Out.bind_ok]
    cases x <;> exact ⟨_, rfl⟩
  · have : ∃ x, gcpTool F t (L.sha256 serialized) false = .ok x := by
      rw [gcpTool, ht, Out.bind_ok]
      split
      · exact ⟨_, rfl⟩
      split
      · exact ⟨_, rfl⟩
      rename_i o _
      cases o.1.contents with
      | error e => exact ⟨_, rfl⟩
      | ok b =>
        simp only [andThen]
        cases F.evidence b <;> exact ⟨_, rfl⟩
    obtain ⟨x, hx⟩ := this
    rw [gcpEvidence, hx, Out.bind_ok]
    cases x <;> exact ⟨_, rfl⟩

/-! ### A case -/

/-- A text for messages: each field after its length in unary. -/
def put (b : Bytes) : Bytes := List.replicate b.length 1 ++ 0 :: b

def take (b : Bytes) : Bytes × Bytes :=
  let n := (b.takeWhile (· = 1)).length
  ((b.drop (n + 1)).take n, (b.drop (n + 1)).drop n)

theorem take_put (b t : Bytes) : take (put b ++ t) = (b, t) := by
  have h : ((put b ++ t).takeWhile (· = 1)).length = b.length := by
    rw [put, List.append_assoc, List.takeWhile_append_of_pos (by simp)]
    simp
  have h2 : (put b ++ t).drop (b.length + 1) = b ++ t := by
    have : put b ++ t = (List.replicate b.length 1 ++ [0]) ++ (b ++ t) := by simp [put]
    rw [this, List.drop_append_of_le_length (by simp), List.drop_of_length_le (by simp), List.nil_append]
  simp only [take, h, h2, List.take_left, List.drop_left]

def toyWire : Wire where
  evidence e := put e.attestationData ++ (put e.pcrs ++ (put e.msg ++ (put e.sig ++ (put e.snpReport ++ (put e.runtimeData ++ (put e.akcert ++ []))))))
  endorsements e := put e.intermediate ++ (put e.vcek ++ (put e.ask ++ []))

def toyFormats : Formats where
  json _ := some Tpm2Snp.toyDoc
  evidence b :=
    let x := take b; let y := take x.2; let z := take y.2; let u := take z.2; let v := take u.2; let w := take v.2; let t := take w.2
    some ⟨x.1, y.1, z.1, u.1, v.1, w.1, t.1⟩
  endorsements b :=
    let x := take b; let y := take x.2; let z := take y.2
    some ⟨x.1, y.1, z.1⟩

theorem toy_reads : Reads toyFormats toyWire := by
  constructor
  · intro e; simp only [toyFormats, toyWire, take_put]
  · intro e; simp only [toyFormats, toyWire, take_put]

/-- Signatures of whatever is quoted are the same. -/
def toyLib : Lib := { Tpm2Snp.toyLib with rsaVerify := fun _ _ s => s == List.replicate 256 6 }

def toyAmd : List toyLib.Cert := [(20 : UInt8)]
def toyRoots : List toyLib.Cert := [(10 : UInt8)]

def toyQuote (nonce : Bytes) : Quote := { Tpm2Snp.toyQuote with nonce := nonce }

/-- A file that is read in two parts. -/
def toyFile (b : Bytes) : File := ⟨3, [some (b.take 1), some (b.drop 1)]⟩

/-- The TPM of the case. -/
def toyRun : QuoteRun where
  tmp := true
  quote text := match Codec.hexToBytes text with
    | .ok nonce => some ⟨toyFile (toyQuote nonce).wire, toyFile (sigWire (List.replicate 256 6)), toyFile Tpm2Snp.toyRegs.flatten⟩
    | .error _ => none

def toyAzure : AzureWorld where
  tmp := true
  commands := [fun _ => true, fun i => i == 5]
  report := toyFile (zeros 32 ++ Tpm2Snp.laxReport ++ zeros 20 ++ [123, 125] ++ zeros 8)
  akcert := ⟨3, [some [1]]⟩
  intermediate := ⟨4, [some [2], some []]⟩
  vcek := ⟨3, [some [3]]⟩
  ask := ⟨3, [some [4]]⟩
  first := toyRun
  second := toyRun
  junk := []

example : (azureInit toyLib toyFormats toyAmd toyRoots toyWire toyAzure 4 0 matches .ok _) = true := by decide +kernel
-- it does not start if a command fails six times, or the platform's certificate is that of somebody else
example : (azureInit toyLib toyFormats toyAmd toyRoots toyWire { toyAzure with commands := [fun i => i == 6] } 4 0 matches .abort) = true := by
  decide +kernel
example : (azureInit toyLib toyFormats toyAmd toyRoots toyWire { toyAzure with vcek := ⟨3, [some [1]]⟩ } 4 0 matches .abort) = true := by
  decide +kernel

/-- **C77 is false if the host asks for a negative log level.** In an init message with the level -1 it is taken over, `LOG(FATAL)` does nothing, and
`Init` on Azure comes to its end though a command failed six times, and though the evidence that it has just made is not accepted by the machine itself.
-/
theorem C77_started_false : ∃ (L : Lib) (F : Formats) (amd roots : List L.Cert) (S : Wire) (w : AzureWorld) (asked start : Int) (A : Env)
    (evidence endorsements : Bytes) (e : Tpm2Snp.Err), Reads F S ∧
    azureInit L F amd roots S w (Log.atInit Log.first asked) start = .ok A ∧ (∃ c ∈ w.commands, ∀ i < 6, c i = false) ∧
    azureEvidence L S w.second A [] = .ok (.ok (evidence, endorsements)) ∧
    Tpm2Snp.attest L F amd roots A.loc start evidence endorsements = .ok (.error e) := by
  let w : AzureWorld := { toyAzure with commands := [fun i => i == 6], vcek := ⟨3, [some [1]]⟩ }
  let good : Out Env → Bool := fun
    | .ok A => (match azureEvidence toyLib toyWire toyRun A [] with
      | .ok (.ok a) => (Tpm2Snp.attest toyLib toyFormats toyAmd toyRoots A.loc 0 a.1 a.2 matches .ok (.error _))
      | _ => false)
    | _ => false
  have hi : good (azureInit toyLib toyFormats toyAmd toyRoots toyWire w (-1) 0) = true := by decide +kernel
  cases h : azureInit toyLib toyFormats toyAmd toyRoots toyWire w (-1) 0 with
  | abort => rw [h] at hi; cases hi
  | ub => rw [h] at hi; cases hi
  | ok A =>
    rw [h] at hi
    simp only [good] at hi
    cases he : azureEvidence toyLib toyWire toyRun A [] with
    | abort => rw [he] at hi; cases hi
    | ub => rw [he] at hi; cases hi
    | ok x =>
      rw [he] at hi
      rcases x with e | ⟨evidence, endorsements⟩
      · cases hi
      · cases ha : Tpm2Snp.attest toyLib toyFormats toyAmd toyRoots A.loc 0 evidence endorsements with
        | abort => simp [ha] at hi
        | ub => simp [ha] at hi
        | ok y =>
          rcases y with e | d
          · exact ⟨toyLib, toyFormats, toyAmd, toyRoots, toyWire, w, -1, 0, A, evidence, endorsements, e, toy_reads,
              by rw [show Log.atInit Log.first (-1) = -1 by decide]; exact h,
              ⟨_, List.mem_singleton_self _, by decide⟩, he, ha⟩
          · simp [ha] at hi

theorem toySig_length : (sigWire (List.replicate 256 6)).length = 262 := by
  rw [sigWire]
  simp only [List.length_append, List.length_replicate, List.length_cons, List.length_nil]

theorem toyFile_contents (b : Bytes) (h : 2 ≤ b.length) : (toyFile b).contents = .ok b := by
  match b, h with
  | x :: y :: r, _ => rfl

theorem toyFile_of (b : Bytes) (h : 2 ≤ b.length) : FileOf (toyFile b) b := by
  intro t ht
  have := (C77_file_contents (toyFile b) t).mpr ⟨by simp [toyFile], ht⟩
  rw [toyFile_contents b h] at this
  simpa using this.symm

theorem toyRegs_wf : Registers Tpm2Snp.toyRegs := by
  constructor
  · rfl
  · decide

theorem toyQuote_wf (nonce : Bytes) (h : nonce.length = 32) : (toyQuote nonce).Wf :=
  ⟨rfl, h, Tpm2Snp.toyHash_length _⟩

theorem toy_quotes (nonce : Bytes) (h : nonce.length = 32) :
    Quotes toyLib () Tpm2Snp.toyRegs nonce (toyQuote nonce).wire (sigWire (List.replicate 256 6)) Tpm2Snp.toyRegs.flatten :=
  ⟨toyQuote nonce, List.replicate 256 6, toyQuote_wf nonce h, rfl, rfl, rfl, rfl, List.length_replicate, rfl, beq_self_eq_true _⟩

theorem toyRun_quote {text nonce : Bytes} (h : Codec.Spells text nonce) : toyRun.quote text =
    some ⟨toyFile (toyQuote nonce).wire, toyFile (sigWire (List.replicate 256 6)), toyFile Tpm2Snp.toyRegs.flatten⟩ := by
  simp only [toyRun, (Codec.C47_hex_decode_exact text nonce).mpr h]

theorem toy_tpm : Tpm toyLib () Tpm2Snp.toyRegs toyRun.quote := by
  intro nonce text o hn hs ho
  rw [toyRun_quote hs, Option.some.injEq] at ho
  subst ho
  refine ⟨_, _, _, toyFile_of _ ?_, toyFile_of _ ?_, toyFile_of _ ?_, toy_quotes nonce hn⟩
  · rw [Tpm2.wire_length _ (toyQuote_wf nonce hn)]; omega
  · rw [toySig_length]; omega
  · decide +kernel

/-- The assumptions of `C77_azure_accepted_partial` are met in this case. -/
example : ∃ A evidence endorsements d, azureInit toyLib toyFormats toyAmd toyRoots toyWire toyAzure 4 0 = .ok A ∧
    azureEvidence toyLib toyWire toyRun A [7, 8] = .ok (.ok (evidence, endorsements)) ∧
    Tpm2Snp.attest toyLib toyFormats toyAmd toyRoots Tpm2Snp.toyRegs 5 evidence endorsements = .ok (.ok d) ∧ d.key = [7, 8] := by
  have hi : (azureInit toyLib toyFormats toyAmd toyRoots toyWire toyAzure 4 0 matches .ok _) = true := by decide +kernel
  cases h : azureInit toyLib toyFormats toyAmd toyRoots toyWire toyAzure 4 0 with
  | abort => rw [h] at hi; simp at hi
  | ub => rw [h] at hi; simp at hi
  | ok A =>
    obtain ⟨-, -, g1, g2, g3, g4, -⟩ := C77_azure_started_partial _ _ _ _ _ toy_reads _ _ _ (by decide) _ h
    have g1 : A.evidence.akcert = [1] := (Except.ok.inj g1).symm
    have g2 : A.endorsements.intermediate = [2] := (Except.ok.inj g2).symm
    have g3 : A.endorsements.vcek = [3] := (Except.ok.inj g3).symm
    have g4 : A.endorsements.ask = [4] := (Except.ok.inj g4).symm
    obtain ⟨text, ht, hs, -⟩ := Codec.hexEnc_spells (toyLib.sha256 [7, 8])
    have hw := Tpm2.wire_length _ (toyQuote_wf (toyLib.sha256 [7, 8]) (toyLib.sha256_length _))
    have he : ∃ evidence endorsements, azureEvidence toyLib toyWire toyRun A [7, 8] = .ok (.ok (evidence, endorsements)) := by
      rw [azureEvidence, azureCurrent, if_neg (Bool.noConfusion : ¬ toyRun.tmp = false), ht, Out.bind_ok, toyRun_quote hs]
      simp only [toyFile_contents _ (by rw [hw]; omega : 2 ≤ (toyQuote (toyLib.sha256 [7, 8])).wire.length),
        toyFile_contents _ (by rw [toySig_length]; omega : 2 ≤ (sigWire (List.replicate 256 6)).length),
        toyFile_contents _ (by decide +kernel : 2 ≤ Tpm2Snp.toyRegs.flatten.length), andThen, Out.bind_ok]
      exact ⟨_, _, rfl⟩
    obtain ⟨_, _, he⟩ := he
    obtain ⟨d, h1, h2, -⟩ := C77_azure_accepted_partial toyLib toyFormats toyAmd toyRoots toyWire toy_reads toyAzure 4 0 (by decide) A h 5 ()
      ⟨by rw [g1]; rintro c n e; cases e; rfl, by rw [g1, g2]; rintro c n i m e e'; cases e; cases e'; rfl,
        by rw [g3, g4]; rintro c n i m e e'; cases e; cases e'; rfl⟩
      toyRun Tpm2Snp.toyRegs toyRegs_wf toy_tpm [7, 8] ⟨[7, 8], OMap.empty⟩ rfl _ _ he Tpm2Snp.toyRegs rfl (fun _ _ => rfl)
    exact ⟨A, _, _, d, rfl, he, h1, h2⟩

/-- A table with two certificates, after it the two. -/
def toyCerts : Bytes := Sev.uuidVcek ++ [72, 0, 0, 0, 1, 0, 0, 0] ++ (Sev.uuidAsk ++ [73, 0, 0, 0, 1, 0, 0, 0]) ++ zeros 24 ++ [3, 4]

/-- The tool of a machine whose registers are `regs`. -/
def toyTool (nonce : Bytes) : Bytes :=
  toyWire.evidence ⟨[], Tpm2Snp.toyRegs.flatten, (toyQuote nonce).wire, sigWire (List.replicate 256 6), [], [], [1]⟩

def toyToolRun : ToolRun where
  tmp := true
  tool text := match Codec.hexToBytes text with
    | .ok nonce => some (toyFile (toyTool nonce), toyFile (toyWire.endorsements ⟨[2], [], []⟩))
    | .error _ => none

/-- The device puts the user data into the report, and signs it. -/
def toyGcp : GcpWorld where
  nonce := zeros 32
  first := toyToolRun
  junk := []
  left := (⟨[], [], [], [], [], [], []⟩, ⟨[], [], []⟩)
  leftSnp := ⟨[], [], [], [], []⟩
  snp := ⟨[-1, 3], fun user => ⟨0, 0, 0, 0, 1184, zeros 80 ++ user ++ zeros (672 - 144) ++ [5] ++ zeros 511, toyCerts, toyCerts.length⟩⟩
  second := toyToolRun

example : (gcpInit toyLib toyFormats toyAmd toyRoots toyWire toyGcp 4 0 matches .ok _) = true := by decide +kernel
-- it does not start if there is no device, or the report is for another key
example : (gcpInit toyLib toyFormats toyAmd toyRoots toyWire { toyGcp with snp := { toyGcp.snp with fds := [-1, 0] } } 4 0 matches .abort) = true := by
  decide +kernel
example : (gcpInit toyLib toyFormats toyAmd toyRoots toyWire { toyGcp with snp := { toyGcp.snp with
    answer := fun _ => toyGcp.snp.answer (zeros 64) } } 4 0 matches .abort) = true := by
  decide +kernel

theorem toyTool_tool : Tool toyLib toyFormats () Tpm2Snp.toyRegs [1] toyToolRun.tool := by
  intro nonce text o hn hs ho
  have : toyToolRun.tool text = some (toyFile (toyTool nonce), toyFile (toyWire.endorsements ⟨[2], [], []⟩)) := by
    simp only [toyToolRun, (Codec.C47_hex_decode_exact text nonce).mpr hs]
  rw [this, Option.some.injEq] at ho
  subst ho
  refine ⟨_, _, _, _, toyFile_of _ ?_, toy_reads.1 _, toy_quotes nonce hn⟩
  rw [toyTool, toyWire]
  simp only [List.length_append, put, List.length_cons, toySig_length]
  omega

/-- The assumptions of `C77_gcp_accepted_partial` are met in this case. -/
example : ∃ A evidence endorsements d, gcpInit toyLib toyFormats toyAmd toyRoots toyWire toyGcp 4 0 = .ok A ∧
    gcpEvidence toyLib toyFormats toyWire toyToolRun A [7, 8] = .ok (.ok (evidence, endorsements)) ∧
    Tpm2Snp.attest toyLib toyFormats toyAmd toyRoots Tpm2Snp.toyRegs 5 evidence endorsements = .ok (.ok d) ∧ d.key = [7, 8] := by
  let good : Out Env → Bool := fun
    | .ok A => A.evidence.akcert == [1] && A.endorsements.intermediate == [2] && A.endorsements.vcek == [3] && A.endorsements.ask == [4] &&
      (gcpEvidence toyLib toyFormats toyWire toyToolRun A [7, 8] matches .ok (.ok _))
    | _ => false
  have hi : good (gcpInit toyLib toyFormats toyAmd toyRoots toyWire toyGcp 4 0) = true := by decide +kernel
  cases h : gcpInit toyLib toyFormats toyAmd toyRoots toyWire toyGcp 4 0 with
  | abort => rw [h] at hi; simp [good] at hi
  | ub => rw [h] at hi; simp [good] at hi
  | ok A =>
    rw [h] at hi
    simp only [good, Bool.and_eq_true, beq_iff_eq] at hi
    obtain ⟨⟨⟨⟨g1, g2⟩, g3⟩, g4⟩, g5⟩ := hi
    cases he : gcpEvidence toyLib toyFormats toyWire toyToolRun A [7, 8] with
    | abort => rw [he] at g5; simp at g5
    | ub => rw [he] at g5; simp at g5
    | ok x =>
      rcases x with e | ⟨evidence, endorsements⟩
      · rw [he] at g5; simp at g5
      have ht : Tool toyLib toyFormats () Tpm2Snp.toyRegs A.evidence.akcert toyToolRun.tool := by rw [g1]; exact toyTool_tool
      obtain ⟨d, h1, h2, -⟩ := C77_gcp_accepted_partial toyLib toyFormats toyAmd toyRoots toyWire toy_reads toyGcp 4 0 (by decide) A h 5 ()
        ⟨by rw [g1]; rintro c n e; cases e; rfl, by rw [g1, g2]; rintro c n i m e e'; cases e; cases e'; rfl,
          by rw [g3, g4]; rintro c n i m e e'; cases e; cases e'; rfl⟩
        Tpm2Snp.toyRegs ht toyToolRun Tpm2Snp.toyRegs toyRegs_wf ht [7, 8] ⟨[7, 8], OMap.empty⟩ rfl _ _ he Tpm2Snp.toyRegs rfl (fun _ _ => rfl)
      exact ⟨A, _, _, d, rfl, he, h1, h2⟩

/-! ## Nitro -/

/-- The security module of a machine with the registers `regs` made this document, with this user data, and at `now` AWS vouches for it. -/
def Attested (L : Lib) (W : Nitro.World) (roots : List L.Cert) (now : Int) (regs : Int → Option Bytes) (user evidence : Bytes) : Prop :=
  ∃ header payload signature fs, Spec.Nitro.Cose (W.cbor evidence) header payload signature ∧
    Spec.Nitro.HeaderPasses W.cbor header payload signature ∧ Spec.Nitro.Document (W.cbor payload) fs ∧ Spec.Nitro.Lawful fs ∧
    Spec.Nitro.Signed L roots now (Spec.Nitro.bytesOf (Spec.Nitro.value fs "certificate".toList)) (Spec.Nitro.bundle fs) header payload signature ∧
    (∀ i, Spec.Nitro.register fs i = regs i) ∧ Spec.Nitro.bytesOf (Spec.Nitro.value fs "user_data".toList) = user

/-- What the security module makes are documents that AWS vouches for. -/
def Module (L : Lib) (W : Nitro.World) (roots : List L.Cert) (now : Int) (regs : Int → Option Bytes) (nsm : Bytes → Option Bytes) : Prop :=
  ∀ user evidence, nsm user = some evidence → Attested L W roots now regs user evidence

/-- **C77, Nitro.** `Init` takes the registers of the own machine. -/
theorem C77_nitro_started (L : Lib) (W : Nitro.World) (all : ∀ n, W.alloc n = true) (roots : List L.Cert) (now : Int)
    (regs : Int → Option Bytes) (nsm : Bytes → Option Bytes) (mod : Module L W roots now regs nsm) (zeroKey : Bytes) (loc : OMap Int Bytes)
    (init : nitroInit W nsm zeroKey = .ok loc) : ∀ i, loc.find i = regs i := by
  rw [nitroInit] at init
  obtain ⟨evidence, h1, init⟩ := orDie_ok.mp init
  obtain ⟨x, h2, init⟩ := Out.bind_eq_ok.mp init
  obtain ⟨cose, h3, init⟩ := orDie_ok.mp init
  obtain ⟨y, h4, init⟩ := Out.bind_eq_ok.mp init
  obtain ⟨doc, h5, init⟩ := orDie_ok.mp init
  rw [h3] at h2
  rw [h5] at h4
  rw [nitroEvidence] at h1
  split at h1
  · simp at h1
  rename_i e he
  simp only [Except.ok.injEq] at h1
  subst h1
  obtain ⟨header, payload, signature, fs, a1, a2, a3, a4, -, a6, -⟩ := mod _ _ he
  rw [Attest.Nitro.coseParse_complete all (c := ⟨header, payload, signature⟩) a1 a2] at h2
  simp only [Out.ok.injEq, Except.ok.injEq] at h2
  subst h2
  rw [Attest.Nitro.docParse_complete all a3 a4] at h4
  simp only [Out.ok.injEq, Except.ok.injEq] at h4
  subst h4
  simp only [Out.ok.injEq] at init
  subst init
  intro i
  rw [Attest.Nitro.docOf_register, a6]

/-- **C77, Nitro.** Evidence is accepted by every enclave of the same image, and gives the attestation data. -/
theorem C77_nitro_accepted (L : Lib) (W : Nitro.World) (all : ∀ n, W.alloc n = true) (roots : List L.Cert) (start now : Int)
    (hn : -2^63 ≤ now - 3600 ∧ now + 3600 < 2^63) (regs regs' : Int → Option Bytes) (nsm nsm' : Bytes → Option Bytes)
    (mod : Module L W roots now regs nsm) (mod' : Module L W roots start regs' nsm')
    (same : ∀ i ∈ [0, 1, 2], ∃ b, regs i = some b ∧ regs' i = some b) (zeroKey : Bytes) (loc : OMap Int Bytes)
    (init : nitroInit W nsm' zeroKey = .ok loc) (serialized evidence : Bytes) (d : Data) (hd : L.parseData serialized = some d)
    (made : nitroEvidence nsm serialized = .ok evidence) : Attest.Nitro.attest L W roots loc now evidence = .ok (some d) := by
  have hl := C77_nitro_started L W all roots start regs' nsm' mod' zeroKey loc init
  rw [nitroEvidence] at made
  split at made
  · simp at made
  rename_i e he
  simp only [Except.ok.injEq] at made
  subst made
  obtain ⟨header, payload, signature, fs, a1, a2, a3, a4, a5, a6, a7⟩ := mod _ _ he
  refine (Nitro.C59_accepts_exactly L W all roots loc now hn _ d).mpr ⟨header, payload, signature, fs, a1, a2, a3, a4, a5, ?_, by rw [a7]; exact hd⟩
  intro i hi
  obtain ⟨b, h1, h2⟩ := same i hi
  exact ⟨b, by rw [hl, h2], by rw [a6, h1]⟩

/-- **C77, Nitro.** Unlike those on Azure and GCP, `Init` on Nitro does not check that its evidence would be accepted: here it comes to its end though
no certificate chains to AWS's root, so that no evidence is ever accepted. -/
theorem C77_nitro_start_checks_nothing : ∃ (L : Lib) (W : Nitro.World) (roots : List L.Cert) (nsm : Bytes → Option Bytes) (loc : OMap Int Bytes),
    nitroInit W nsm [] = .ok loc ∧ ∀ now evidence d, Attest.Nitro.attest L W roots loc now evidence ≠ .ok (some d) := by
  have hi : (nitroInit Nitro.toyWorld (fun _ => some [1]) [] matches .ok _) = true := by decide +kernel
  cases h : nitroInit Nitro.toyWorld (fun _ => some [1]) [] with
  | abort => rw [h] at hi; simp at hi
  | ub => rw [h] at hi; simp at hi
  | ok loc =>
    refine ⟨{ Nitro.toyLib with chain := fun _ _ _ _ => false }, Nitro.toyWorld, [], fun _ => some [1], loc, h, ?_⟩
    intro now evidence d h
    rw [Attest.Nitro.attest] at h
    obtain ⟨x, -, h⟩ := Out.bind_eq_ok.mp h
    rcases x with er | c
    · simp at h
    obtain ⟨y, -, h⟩ := Out.bind_eq_ok.mp h
    rcases y with er | doc
    · simp at h
    obtain ⟨z, h3, h⟩ := Out.bind_eq_ok.mp h
    rcases z with er | u
    · simp at h
    rw [Attest.Nitro.verify] at h3
    split at h3
    · simp at h3
    split at h3
    · simp at h3
    split at h3
    · simp at h3
    split at h3
    · simp at h3
    · simp at h3

/-- The assumptions of `C77_nitro_accepted` are met in the case of C59. -/
example : ∃ (W : Nitro.World) (regs : Int → Option Bytes) (nsm : Bytes → Option Bytes) (loc : OMap Int Bytes), (∀ n, W.alloc n = true) ∧
    Module Nitro.toyLib W Nitro.toyRoots 10000 regs nsm ∧ (∀ i ∈ [0, 1, 2], ∃ b, regs i = some b ∧ regs i = some b) ∧
    nitroInit W nsm [7, 8] = .ok loc ∧ nitroEvidence nsm [7, 8] = .ok [1] := by
  let W : Nitro.World := { Nitro.toyWorld with alloc := fun _ => true }
  let nsm : Bytes → Option Bytes := fun u => if u = [7, 8] then some [1] else none
  have acc : (Attest.Nitro.attest Nitro.toyLib W Nitro.toyRoots Nitro.toyRegisters 10000 [1] matches .ok (some ⟨[7, 8], _⟩)) = true := by
    decide +kernel
  have hi : (nitroInit W nsm [7, 8] matches .ok _) = true := by decide +kernel
  cases h : Attest.Nitro.attest Nitro.toyLib W Nitro.toyRoots Nitro.toyRegisters 10000 [1] with
  | abort => rw [h] at acc; simp at acc
  | ub => rw [h] at acc; simp at acc
  | ok x =>
    cases x with
    | none => rw [h] at acc; simp at acc
    | some d =>
      obtain ⟨header, payload, signature, fs, a1, a2, a3, a4, a5, a6, a7⟩ :=
        (Nitro.C59_accepts_exactly Nitro.toyLib W (fun _ => rfl) Nitro.toyRoots Nitro.toyRegisters 10000 (by decide) [1] d).mp h
      have hu : Spec.Nitro.bytesOf (Spec.Nitro.value fs "user_data".toList) = [7, 8] := by
        rw [h] at acc
        have e : (⟨Spec.Nitro.bytesOf (Spec.Nitro.value fs "user_data".toList), .empty⟩ : Data) = d := Option.some.inj a7
        subst e
        split at acc
        · rename_i heq
          simp only [Out.ok.injEq, Option.some.injEq, Data.mk.injEq] at heq
          exact heq.1
        · simp at acc
      cases h2 : nitroInit W nsm [7, 8] with
      | abort => rw [h2] at hi; simp at hi
      | ub => rw [h2] at hi; simp at hi
      | ok loc =>
        refine ⟨W, Spec.Nitro.register fs, nsm, loc, fun _ => rfl, ?_, ?_, h2, rfl⟩
        · intro user evidence he
          simp only [nsm] at he
          split at he
          · rename_i hx
            simp only [Option.some.injEq] at he
            subst he hx
            exact ⟨header, payload, signature, fs, a1, a2, a3, a4, a5, fun _ => rfl, hu⟩
          · simp at he
        · intro i hm
          obtain ⟨b, -, hb⟩ := a6 i hm
          exact ⟨b, hb, hb⟩

/-! ## SGX -/

/-- OpenEnclave's evidence for custom claims, when it can be had, verifies, with the enclave's MRENCLAVE, those claims, and information about the
platform that has an evaluation data number; and what it makes of custom claims it reads. -/
def Enclave (W : Sgx.World) (O : Oe) (t : Sgx.Time) (mrenclave : Bytes) (n : Int) : Prop :=
  (∀ cs b, O.serialize cs = some b → W.custom b = some cs) ∧
  ∀ b evidence endorsements, O.get b = some (evidence, endorsements) →
    (∀ claims, O.verify evidence endorsements = some claims → Sgx.Says claims "unique_id".toList mrenclave) ∧
    ∃ claims v doc, W.verify t evidence endorsements = some claims ∧ Sgx.Says claims "unique_id".toList mrenclave ∧
      Sgx.Says claims "sgx_tcb_info".toList v ∧ W.json v = some doc ∧ Sgx.TcbNumber doc n ∧
      Sgx.Says claims "custom_claims_buffer".toList b

theorem sgxEvidence_ok {O : Oe} {key config limits : Bytes} {a : Bytes × Bytes} (h : sgxEvidence O key config limits = .ok a) :
    ∃ b, O.serialize [⟨Sev.str "pk", key⟩, ⟨Sev.str "config", config⟩, ⟨Sev.str "minimum_limits", limits⟩] = some b ∧ O.get b = some a := by
  rw [sgxEvidence] at h
  split at h
  · simp at h
  rename_i b hb
  split at h
  · simp at h
  rename_i e he
  simp only [Except.ok.injEq] at h
  exact ⟨b, hb, by rw [he, h]⟩

/-- **C77, SGX.** The constructor takes the own MRENCLAVE. -/
theorem C77_sgx_started (W : Sgx.World) (O : Oe) (t : Sgx.Time) (mrenclave : Bytes) (n : Int) (oe : Enclave W O t mrenclave n) (own : Bytes)
    (init : sgxInit O = .ok own) : own = mrenclave := by
  rw [sgxInit] at init
  obtain ⟨⟨evidence, endorsements⟩, h1, init⟩ := orDie_ok.mp init
  obtain ⟨b, -, h2⟩ := sgxEvidence_ok h1
  simp only at init
  split at init
  · simp at init
  rename_i claims hc
  have := (oe.2 b _ _ h2).1 claims hc
  rw [(Attest.Sgx.findClaim_iff claims "unique_id" mrenclave).mpr this] at init
  simpa using init.symm

/-- **C77, SGX.** Evidence of one enclave is accepted by another with the same MRENCLAVE, and gives the key, and the platform's evaluation data number
as the value for the minimums. -/
theorem C77_sgx_accepted (W : Sgx.World) (O O' : Oe) (t t' : Sgx.Time) (mrenclave : Bytes) (n n' : Int) (oe : Enclave W O t mrenclave n)
    (oe' : Enclave W O' t' mrenclave n') (own : Bytes) (init : sgxInit O' = .ok own) (now : Int) (date : Sgx.Date W now t)
    (key config limits : Bytes) (hk : key.length = 32) (evidence endorsements : Bytes)
    (made : sgxEvidence O key config limits = .ok (evidence, endorsements)) :
    ∃ d, Attest.Sgx.attest W own now evidence endorsements = .ok (.ok d) ∧ d.key = key ∧
      ∀ name x, d.values.find name = some x ↔ name = ascii "sgx_tcb_evaluation_data_number".toList ∧ Sgx.Be64 x n := by
  rw [C77_sgx_started W O' t' mrenclave n' oe' own init]
  obtain ⟨b, h1, h2⟩ := sgxEvidence_ok made
  obtain ⟨-, claims, v, doc, a1, a2, a3, a4, a5, a6⟩ := oe.2 b _ _ h2
  have h3 := oe.1 _ _ h1
  have hv : ∃ vals : Minimums.Values, ∀ name x, vals.find name = some x ↔ name = ascii "sgx_tcb_evaluation_data_number".toList ∧ Sgx.Be64 x n := by
    have hk : (((n % 2^64).toNat : Nat) : Int) = n % 2^64 := by omega
    refine ⟨OMap.empty.insert (ascii "sgx_tcb_evaluation_data_number".toList) (be64 (n % 2^64).toNat), fun name x => ?_⟩
    rw [OMap.find_insert, ← Attest.Sgx.be64_iff x _ n hk]
    by_cases hn : ascii "sgx_tcb_evaluation_data_number".toList = name
    · rw [if_pos hn, Option.some.injEq]
      exact ⟨fun h => ⟨hn.symm, h.symm⟩, fun h => h.2.symm⟩
    · rw [if_neg hn]
      simp only [OMap.find_empty, reduceCtorEq, false_iff]
      rintro ⟨h, -⟩
      exact hn h.symm
  obtain ⟨vals, hv⟩ := hv
  exact ⟨⟨key, vals⟩, (Sgx.C61_accepts_exactly W mrenclave now evidence endorsements ⟨key, vals⟩).mpr
    ⟨t, claims, v, doc, n, b, _, date, a1, a2, a3, a4, a5, a6, h3, hk, hv⟩, rfl, hv⟩

/-- Claims as text, and evidence that is this text. -/
def toyOe : Oe where
  serialize cs := match cs with
    | [a, b, c] => some (put a.name ++ (put a.value ++ (put b.name ++ (put b.value ++ (put c.name ++ (put c.value ++ []))))))
    | _ => none
  get b := some (b, [])
  verify ev _ := some [⟨ascii "unique_id".toList, [1, 2, 3]⟩, ⟨ascii "sgx_tcb_info".toList, [1]⟩, ⟨ascii "custom_claims_buffer".toList, ev⟩]

def toySgx : Sgx.World where
  gmtime := Sgx.toyWorld.gmtime
  json := Sgx.toyWorld.json
  verify t ev en := if t.year = 2026 then toyOe.verify ev en else none
  custom v :=
    let x := take v; let y := take x.2; let z := take y.2; let u := take z.2; let v := take u.2; let w := take v.2
    some [⟨x.1, y.1⟩, ⟨z.1, u.1⟩, ⟨v.1, w.1⟩]

/-- The assumptions of `C77_sgx_accepted` are met in this case. -/
example : Enclave toySgx toyOe ⟨2026, 11, 16, 11, 0, 0⟩ [1, 2, 3] 17 ∧ sgxInit toyOe = .ok [1, 2, 3] ∧
    Sgx.Date toySgx 5 ⟨2026, 11, 16, 11, 0, 0⟩ ∧ ∃ evidence endorsements, sgxEvidence toyOe Sgx.toyKey [] [9] = .ok (evidence, endorsements) := by
  refine ⟨⟨?_, ?_⟩, rfl, ⟨126, 10, rfl, rfl, rfl⟩, _, _, rfl⟩
  · intro cs b h
    match cs, h with
    | [x, y, z], h =>
      have h : some (put x.name ++ (put x.value ++ (put y.name ++ (put y.value ++ (put z.name ++ (put z.value ++ [])))))) = some b := h
      rw [Option.some.injEq] at h
      subst h
      simp only [toySgx, take_put]
  · intro b evidence endorsements h
    obtain ⟨rfl, rfl⟩ : b = evidence ∧ [] = endorsements := by simpa [toyOe] using h
    have u : Sgx.Says [⟨ascii "unique_id".toList, [1, 2, 3]⟩, ⟨ascii "sgx_tcb_info".toList, [1]⟩, ⟨ascii "custom_claims_buffer".toList, b⟩]
        "unique_id".toList [1, 2, 3] := ⟨[], _, rfl, by simp⟩
    refine ⟨?_, _, [1], _, rfl, u, ⟨[_], _, rfl, ?_⟩, rfl, ⟨_, ⟨[], [], rfl, by simp⟩, ⟨[], [], rfl, by simp⟩, by decide, by decide⟩,
      ⟨[_, _], _, rfl, ?_⟩⟩
    · intro claims hc
      obtain rfl : _ = claims := Option.some.inj hc
      exact u
    · simp only [List.mem_singleton, forall_eq]; decide
    · simp only [List.mem_cons, List.not_mem_nil, or_false, forall_eq_or_imp, forall_eq]; decide

/-! ## Simulated environments -/

/-- **C77, simulated.** Evidence gives the attestation data back, and nothing is accepted that does not have the text in front. -/
theorem C77_simulated (L : Lib) (tag : Bytes) : (∀ serialized, simulatedAttest L tag (simulatedEvidence tag serialized) = L.parseData serialized) ∧
    ∀ evidence d, simulatedAttest L tag evidence = some d → ∃ serialized, evidence = tag ++ serialized ∧ L.parseData serialized = some d := by
  constructor
  · intro serialized
    simp [simulatedAttest, simulatedEvidence]
  · intro evidence d h
    rw [simulatedAttest] at h
    split at h
    · simp at h
    · rename_i ht
      refine ⟨evidence.drop tag.length, ?_, h⟩
      conv_lhs => rw [← List.take_append_drop tag.length evidence, not_not.mp ht]

end Svr.Props.Evidence
