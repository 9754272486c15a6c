import Verif.Config

/-! # C50: accepted configurations -/

namespace Svr.Props.Config

open Svr Svr.Config

/-- What the enclave relies on in a configuration. -/
structure Sound (c : Cfg) : Prop where
  heartbeatPos : 0 < c.heartbeatTicks
  heartbeatBeforeElection : c.heartbeatTicks < c.electionTicks
  electionBeforeVotingTimeout : c.electionTicks < c.replicaVotingTimeoutTicks
  votingBeforeMembershipTimeout : c.replicaVotingTimeoutTicks < c.replicaMembershipTimeoutTicks
  chunk : 1024 ≤ c.replicationChunkBytes
  log : 1024 ≤ c.logMaxBytes
  pipeline : 0 < c.replicationPipeline ∧ c.replicationPipeline < 2 ^ 32 - 1
  e2e : 0 < c.e2eTxnTimeoutTicks

structure SoundGroup (g : GroupCfg) : Prop where
  minPos : 0 < g.minVoting
  ordered : g.minVoting ≤ g.maxVoting
  attestation : 0 < g.attestationTimeout
  version : g.dbVersion ∈ [2, 3, 4, 5]

theorem iteSome {a : Prop} [Decidable a] {α : Type} {x : Option α} {e : α} :
    (if a then some e else x) = none ↔ ¬ a ∧ x = none := by
  by_cases ha : a <;> simp [ha]

theorem validate_merge (u : Cfg) (h : validateConfig (merge defaultCfg u) = none) : Sound (merge defaultCfg u) := by
  unfold validateConfig at h
  simp only [iteSome] at h
  obtain ⟨h1, h2, h3, h4, h5, h6, h7, h8, -⟩ := h
  refine ⟨?_, by omega, by omega, by omega, by omega, by omega, by omega, by omega⟩
  simp only [merge, mergeField, defaultCfg]
  by_cases hz : u.heartbeatTicks ≠ 0
  · rw [if_pos hz]; omega
  · rw [if_neg hz]; omega

theorem validateGroup_iff (g : GroupCfg) : validateGroup g = none ↔ SoundGroup g := by
  unfold validateGroup
  simp only [iteSome]
  have hk : ¬ dbKnown g.dbVersion = false ↔ g.dbVersion ∈ [2, 3, 4, 5] := by
    simp [dbKnown]; omega
  rw [hk]
  constructor
  · rintro ⟨h1, h2, h3, h4, -⟩; exact ⟨by omega, by omega, by omega, h4⟩
  · rintro ⟨h1, h2, h3, h4⟩; exact ⟨by omega, by omega, by omega, h4, trivial⟩

/-- **C50**: whatever configuration the host provides, if the enclave starts with it, its timers are ordered and
positive, its sizes are not too small, and its group limits are ordered. -/
theorem C50_start_sound (u : Cfg) (g : GroupCfg) (c : Cfg) (g' : GroupCfg) (h : create u g = .ok (c, g')) :
    Sound c ∧ SoundGroup g' ∧ g' = g := by
  unfold create at h
  simp only at h
  cases hv : validateConfig (merge defaultCfg u) with
  | some e => rw [hv] at h; cases h
  | none =>
    rw [hv] at h
    simp only at h
    cases hg : validateGroup g with
    | some e => rw [hg] at h; cases h
    | none =>
      rw [hg] at h
      cases h
      exact ⟨validate_merge u hv, (validateGroup_iff g).mp hg, rfl⟩

/-- Configuration after a sequence of reconfigurations. -/
def reconfigures (c : Cfg) : List Cfg → Cfg
  | [] => c
  | r :: rs => reconfigures (reconfigure c r).1 rs

/-- **C50**: reconfigurations keep it so. -/
theorem C50_stays_sound (c : Cfg) (hc : Sound c) (rs : List Cfg) : Sound (reconfigures c rs) := by
  induction rs generalizing c with
  | nil => exact hc
  | cons r rs ih =>
    apply ih
    unfold reconfigure
    simp only
    cases hv : validateConfig (merge defaultCfg r) with
    | some e => exact hc
    | none => exact validate_merge r hv

/-- **C50**: with any accepted configuration the random election timeout never divides by zero. -/
theorem C50_no_zero_divisor (c : Cfg) (hc : Sound c) (r : Nat) : ∃ t, randomElectionTimeout c.electionTicks r = .ok t := by
  have := hc.heartbeatBeforeElection
  unfold randomElectionTimeout
  rw [if_neg (by omega)]
  exact ⟨_, rfl⟩

/-- **C50**: an accepted election timeout is drawn from `[election_ticks, 2 * election_ticks)`, hence exceeds the
heartbeat interval.

Missing from "keeps every comparison of timers meaningful" for all accepted configurations: `election_ticks` above
2^31, where the 32-bit sum wraps, see `C50_huge_election_ticks_wrap`. -/
theorem C50_election_timeout_partial (c : Cfg) (hc : Sound c) (he : c.electionTicks ≤ 2 ^ 31) (r : Nat) :
    ∃ t, randomElectionTimeout c.electionTicks r = .ok t ∧ c.electionTicks ≤ t ∧ t < 2 * c.electionTicks ∧
      c.heartbeatTicks < t := by
  have h1 := hc.heartbeatBeforeElection
  have h2 := Nat.mod_lt r (show c.electionTicks > 0 by omega)
  unfold randomElectionTimeout
  rw [if_neg (by omega), Nat.mod_eq_of_lt (by omega)]
  exact ⟨_, rfl, by omega, by omega, by omega⟩

def huge : Cfg :=
  { defaultCfg with electionTicks := 2 ^ 32 - 3, replicaVotingTimeoutTicks := 2 ^ 32 - 2, replicaMembershipTimeoutTicks := 2 ^ 32 - 1 }

/-- **C50**, where it fails: `election_ticks = 2^32 - 3` is accepted, and a draw of 3 gives an election timeout of
zero ticks, below the heartbeat. -/
theorem C50_huge_election_ticks_wrap :
    huge.Fits ∧ validateConfig (merge defaultCfg huge) = none ∧ merge defaultCfg huge = huge ∧
      randomElectionTimeout huge.electionTicks 3 = .ok 0 := by
  refine ⟨⟨by decide, by decide, by decide, by decide, by decide, by decide, by decide, by decide⟩, by decide, by decide, by rfl⟩

/-- The defaults, and a configuration that is refused. -/
example : create ⟨0, 0, 0, 0, 0, 0, 0, 0⟩ ⟨3, 5, 1, 2, 60⟩ = .ok (defaultCfg, ⟨3, 5, 1, 2, 60⟩) ∧
    create ⟨10, 0, 0, 0, 0, 0, 0, 0⟩ ⟨3, 5, 1, 2, 60⟩ = .error .heartbeatVsElection ∧
    create ⟨0, 0, 0, 0, 0, 0, 0, 0⟩ ⟨6, 5, 1, 2, 60⟩ = .error .minGtMax := ⟨rfl, rfl, rfl⟩

end Svr.Props.Config
