import Verif.Core.Regroup
import Verif.Props.Membership
import Verif.Props.Rejoin

/-!
# C39: the changes a leader makes by itself keep to the configured sizes
-/

namespace Svr.Props.Regroup
open Svr Svr.Raft Svr.Raft.Node Svr.Core Svr.Props.Membership
variable {P : Type} [LinearOrder P]

/-! ### Specification -/

/-- The change a leader may make on its own to a group `A` with voters `V`: `seen x` is the number of ticks since it heard of `x`,
`invalidTicks` if it does not know. -/
inductive Regroup (gc : GroupCfg) (rc : RegroupCfg) (seen : P → Int) (A V A' V' : Finset P) : Prop
  /-- one more voter: the spare replica heard of last, if that was recently -/
  | promote (x : P) (hx : x ∈ A) (hv : x ∉ V) (room : V.card < gc.maxVoting) (live : seen x < rc.election)
    (best : ∀ y ∈ A, y ∉ V → seen x ≤ seen y) (ha : A' = A) (hV : V' = insert x V)
  /-- one voter less: one not heard of for too long -/
  | demote (x : P) (hv : x ∈ V) (spare : gc.minVoting < V.card) (known : seen x ≠ invalidTicks) (lost : rc.voting < seen x)
    (ha : A' = A) (hV : V' = V.erase x)
  /-- a replica less: a spare one not heard of for too long -/
  | drop (x : P) (hx : x ∈ A) (hv : x ∉ V) (known : seen x ≠ invalidTicks) (lost : rc.membership < seen x)
    (ha : A' = A.erase x) (hV : V' = V)

/-- What C39 relies on in a replica's state; `sound_of_reachable` shows it of every reachable state. -/
structure Sound (s : Node P) : Prop where
  wf : s.membership.Wf
  sub : s.membership.voting ⊆ s.membership.all
  lead : s.role = .leader → s.me ∈ s.membership.voting
  self : s.role = .leader → s.followers.find s.me = none

theorem sound_of_reachable {g : Setting P} (hg : RaftGroup.Proper g) (hsub : g.m0.voting ⊆ g.m0.all) {W : World P} (h : Reachable g W)
    (hn : NoCollision g.v W.Hashed) (hser : SerInj g.v) {p : P} {s : Node P} (hp : W.node p = some s) : Sound s := by
  obtain ⟨σ, hi⟩ := h.inv (G := W.Hashed) (K := fun _ => True) (fun _ h => h) (fun _ _ => trivial) hn hser
  obtain ⟨F, hF⟩ := hi.get hp
  have ok := hi.ok p s F hF
  have hm := ok.mems.membership
  have hR : s.membership.Wf ∧ s.membership.voting ⊆ s.membership.all := by
    rw [hm]
    refine memAt_ind (fun m => m.Wf ∧ m.voting ⊆ m.all) F _ ⟨hg.wf, hsub⟩ ?_
    intro e _ m hm
    obtain ⟨gr, _, hgr⟩ := memOf_some hm
    obtain ⟨h1, h2, _⟩ := fromProtoLoop_ok _ ⟨[], []⟩ m ⟨List.Pairwise.nil, List.Pairwise.nil⟩ (by simp) hgr
    exact ⟨h1, h2⟩
  refine ⟨hR.1, hR.2, ?_, ?_⟩
  · intro hr
    rw [ok.me]
    exact ok.voter (by rw [hr]; decide)
  · intro hr
    cases hf : s.followers.find s.me with
    | none => rfl
    | some r => exact absurd ok.me (ok.rows hr _ _ hf).other

/-! ### Lemmas -/

theorem fromProtoLoop_works : ∀ (g : List (P × Bool)) (m : Raft.Membership P), (g.map (·.1)).Nodup → (∀ x ∈ g, x.1 ∉ m.all) →
    ∃ m', fromProtoLoop (g.map fun r => (some r.1, r.2)) m = .ok m'
  | [], m, _, _ => ⟨m, rfl⟩
  | (p, v) :: t, m, hn, hd => by
    obtain ⟨h1, h2⟩ := List.nodup_cons.mp hn
    simp only [List.map_cons, fromProtoLoop]
    rw [if_neg (hd (p, v) (List.mem_cons_self ..))]
    refine fromProtoLoop_works t _ h2 ?_
    intro x hx hm
    rcases (mem_sinsert p x.1 m.all).mp hm with e | e
    · apply h1
      show p ∈ _
      rw [← e]
      exact List.mem_map_of_mem hx
    · exact hd x (List.mem_cons_of_mem _ hx) e

/-- The membership described by a list of distinct replicas. -/
theorem fromProto_works (g : List (P × Bool)) (hn : (g.map (·.1)).Nodup) :
    ∃ m', fromProto (g.map fun r => (some r.1, r.2)) = .ok m' ∧ m'.Wf ∧ Membership.V m' ⊆ Membership.A m' ∧
      (∀ x, x ∈ Membership.A m' ↔ ∃ v, (x, v) ∈ g) ∧ (∀ x, x ∈ Membership.V m' ↔ (x, true) ∈ g) := by
  obtain ⟨m', h⟩ := fromProtoLoop_works g ⟨[], []⟩ hn (by simp)
  obtain ⟨h1, h2, h3, h4⟩ := C25_fromProto _ m' h
  refine ⟨m', h, h1, h2, ?_, ?_⟩
  · intro x
    rw [h3 x]
    simp only [List.mem_map, Prod.mk.injEq, Option.some.injEq, Prod.exists]
    constructor
    · rintro ⟨v, a, b, hm, rfl, rfl⟩; exact ⟨b, hm⟩
    · rintro ⟨v, hm⟩; exact ⟨v, x, v, hm, rfl, rfl⟩
  · intro x
    rw [h4 x]
    simp only [List.mem_map, Prod.mk.injEq, Option.some.injEq, Prod.exists]
    constructor
    · rintro ⟨a, b, hm, rfl, rfl⟩; exact hm
    · intro hm; exact ⟨x, true, hm, rfl, rfl⟩

variable {str : P → Bytes} {pid : Bytes → Option P}

theorem str_inj {l : List P} (hs : ∀ p ∈ l, pid (str p) = some p) {a b : P} (ha : a ∈ l) (hb : b ∈ l) : str a = str b ↔ a = b := by
  constructor
  · intro h
    have := hs a ha
    rw [h, hs b hb] at this
    exact (Option.some.inj this).symm
  · rintro rfl; rfl

theorem proto_keys {m : Raft.Membership P} (hs : ∀ p ∈ m.all, pid (str p) = some p) (hm : m.Wf) : ((protoOf str m).map (·.1)).Nodup := by
  simp only [protoOf, List.map_map]
  apply List.Nodup.map_on _ hm.all.nodup
  intro x hx y hy h
  exact (str_inj hs hx hy).mp h

theorem proto_mem {m : Raft.Membership P} {x : P} (hx : x ∈ m.all) : str x ∈ (protoOf str m).map (·.1) := by
  simp only [protoOf, List.map_map, List.mem_map]
  exact ⟨x, hx, rfl⟩

/-- The membership after setting `voting` of `x`. -/
theorem set_result {m : Raft.Membership P} (hs : ∀ p ∈ m.all, pid (str p) = some p) (hm : m.Wf) (hsub : m.voting ⊆ m.all) {x : P} (hx : x ∈ m.all)
    (v : Bool) {g : List (Bytes × Bool)} (h : setVoting (str x) v (protoOf str m) = some g) :
    ∃ m', fromProto (g.map fun r => (pid r.1, r.2)) = .ok m' ∧ m'.Wf ∧ Membership.A m' = Membership.A m ∧
      Membership.V m' = if v then insert x (Membership.V m) else (Membership.V m).erase x := by
  rw [setVoting_eq (proto_keys hs hm) (proto_mem hx)] at h
  cases h
  have he : ((protoOf str m).map fun r => if r.1 = str x then (r.1, v) else r).map (fun r => (pid r.1, r.2)) =
      (m.all.map fun p => (p, if p = x then v else decide (p ∈ m.voting))).map fun r => (some r.1, r.2) := by
    simp only [protoOf, List.map_map]
    apply List.map_congr_left
    intro p hpm
    simp only [Function.comp]
    by_cases hp : p = x
    · subst hp; simp [hs _ hpm]
    · have : ¬ str p = str x := fun e => hp ((str_inj hs hpm hx).mp e)
      simp [hp, this, hs _ hpm]
  rw [he]
  obtain ⟨m', h1, h2, h3, h4, h5⟩ := fromProto_works (m.all.map fun p => (p, if p = x then v else decide (p ∈ m.voting))) (by
    simp only [List.map_map, Function.comp_def, List.map_id']
    exact hm.all.nodup)
  refine ⟨m', h1, h2, ?_, ?_⟩
  · ext y
    rw [h4]
    simp [Membership.A]
  · ext y
    rw [h5]
    simp only [List.mem_map, Prod.mk.injEq, Membership.V]
    by_cases hy : y = x
    · subst hy
      cases v
      · simp
      · simp [hx]
    · have hv : y ∈ m.voting → y ∈ m.all := fun h => hsub h
      cases v
      · simp only [Bool.false_eq_true, if_false, Finset.mem_erase, List.mem_toFinset, ne_eq, hy, not_false_eq_true, true_and]
        constructor
        · rintro ⟨a, _, rfl, h⟩; simpa [hy] using h
        · intro h; exact ⟨y, hv h, rfl, by simp [hy, h]⟩
      · simp only [if_true, Finset.mem_insert, List.mem_toFinset, hy, false_or]
        constructor
        · rintro ⟨a, _, rfl, h⟩; simpa [hy] using h
        · intro h; exact ⟨y, hv h, rfl, by simp [hy, h]⟩

/-- The membership after erasing a spare replica. -/
theorem erase_result {m : Raft.Membership P} (hs : ∀ p ∈ m.all, pid (str p) = some p) (hm : m.Wf) (hsub : m.voting ⊆ m.all) {x : P} (hx : x ∈ m.all)
    (hv : x ∉ m.voting) {g : List (Bytes × Bool)} (h : eraseReplica (str x) (protoOf str m) = some g) :
    ∃ m', fromProto (g.map fun r => (pid r.1, r.2)) = .ok m' ∧ m'.Wf ∧ Membership.A m' = (Membership.A m).erase x ∧
      Membership.V m' = Membership.V m := by
  rw [eraseReplica_eq (proto_keys hs hm) (proto_mem hx)] at h
  cases h
  have he : ((protoOf str m).filter fun r => decide (r.1 ≠ str x)).map (fun r => (pid r.1, r.2)) =
      ((m.all.filter fun p => decide (p ≠ x)).map fun p => (p, decide (p ∈ m.voting))).map fun r => (some r.1, r.2) := by
    simp only [protoOf, List.map_map, List.filter_map]
    have : (m.all.filter ((fun r : Bytes × Bool => decide (r.1 ≠ str x)) ∘ fun p => (str p, decide (p ∈ m.voting)))) =
        m.all.filter fun p => decide (p ≠ x) := by
      apply List.filter_congr
      intro p hpm
      simp [str_inj hs hpm hx]
    rw [this]
    apply List.map_congr_left
    intro p hpm
    simp [hs _ (List.mem_of_mem_filter hpm)]
  rw [he]
  obtain ⟨m', h1, h2, h3, h4, h5⟩ := fromProto_works ((m.all.filter fun p => decide (p ≠ x)).map fun p => (p, decide (p ∈ m.voting))) (by
    simp only [List.map_map, Function.comp_def, List.map_id']
    exact hm.all.nodup.filter _)
  refine ⟨m', h1, h2, ?_, ?_⟩
  · ext y
    rw [h4]
    simp [Membership.A]
    tauto
  · ext y
    rw [h5]
    simp only [List.mem_map, Prod.mk.injEq, Membership.V, List.mem_filter, decide_eq_true_eq, List.mem_toFinset]
    constructor
    · rintro ⟨a, _, rfl, h⟩; exact h
    · intro h
      exact ⟨y, ⟨hsub h, fun e => hv (e ▸ h)⟩, rfl, h⟩

theorem card_V {m : Raft.Membership P} (hm : m.Wf) : (Membership.V m).card = m.voting.length :=
  List.toFinset_card_of_nodup hm.voting.nodup

theorem card_A {m : Raft.Membership P} (hm : m.Wf) : (Membership.A m).card = m.all.length :=
  List.toFinset_card_of_nodup hm.all.nodup

/-- There is a spare replica iff there are more replicas than voters. -/
theorem spare_length {m : Raft.Membership P} (hm : m.Wf) (hsub : m.voting ⊆ m.all) {x : P} (hx : x ∈ m.all) (hv : x ∉ m.voting) :
    m.voting.length < m.all.length := by
  rw [← card_V hm, ← card_A hm]
  apply Finset.card_lt_card
  constructor
  · intro y hy
    simp only [Membership.V, Membership.A, List.mem_toFinset] at *
    exact hsub hy
  · intro h
    apply hv
    have := h (by simpa [Membership.A] using hx)
    simpa [Membership.V] using this

/-! ### Theorems -/

/-- C39: the change a leader proposes is one of the three. -/
theorem C39_regroup (gc : GroupCfg) (rc : RegroupCfg) {s : Node P} (hs : ∀ p ∈ s.membership.all, pid (str p) = some p) (h : Sound s) {member : Bool}
    {g : List (Bytes × Bool)} (hg : nextReplicaGroup str gc rc member s = some g) :
    ∃ m', fromProto (g.map fun r => (pid r.1, r.2)) = .ok m' ∧ m'.Wf ∧
      Regroup gc rc (lastSeen s) (Membership.A s.membership) (Membership.V s.membership) (Membership.A m') (Membership.V m') := by
  unfold nextReplicaGroup at hg
  split at hg
  · cases hg
  split at hg
  · cases hg
  split at hg
  · rename_i g' hp
    cases hg
    unfold promotion at hp
    split at hp
    · rename_i hroom
      obtain ⟨h1, h2⟩ := bestSpare_spec s s.membership.all none invalidTicks [] rfl (by simp)
      generalize hb : bestSpare s s.membership.all none invalidTicks = b at h1 h2 hp
      obtain ⟨best, least⟩ := b
      cases best with
      | none => cases hp
      | some x =>
        simp only [List.nil_append] at h1 h2
        simp only at hp
        split at hp
        · rename_i hl
          obtain ⟨m', k1, k2, k3, k4⟩ := set_result hs h.wf h.sub h1.1 true hp
          refine ⟨m', k1, k2, .promote x ?_ ?_ ?_ (by rw [← h1.2.2]; exact hl) ?_ k3 (by simpa using k4)⟩
          · simpa [Membership.A] using h1.1
          · simpa [Membership.V] using h1.2.1
          · rw [card_V h.wf]; exact hroom.1
          · intro y hy hv
            rw [← h1.2.2]
            exact h2 y (by simpa [Membership.A] using hy) (by simpa [Membership.V] using hv)
        · cases hp
    · cases hp
  · split at hg
    · rename_i g' hp
      cases hg
      unfold demotion at hp
      split at hp
      · rename_i hroom
        obtain ⟨x, hx, hf⟩ := List.exists_of_findSome?_eq_some hp
        split at hf
        · rename_i hl
          obtain ⟨m', k1, k2, k3, k4⟩ := set_result hs h.wf h.sub (h.sub hx) false hf
          refine ⟨m', k1, k2, .demote x ?_ ?_ hl.1 hl.2 k3 (by simpa using k4)⟩
          · simpa [Membership.V] using hx
          · rw [card_V h.wf]; exact hroom
        · cases hf
      · cases hp
    · unfold removal at hg
      split at hg
      · obtain ⟨x, hx, hf⟩ := List.exists_of_findSome?_eq_some hg
        split at hf
        · cases hf
        · rename_i hv
          split at hf
          · rename_i hl
            obtain ⟨m', k1, k2, k3, k4⟩ := erase_result hs h.wf h.sub hx hv hf
            refine ⟨m', k1, k2, .drop x ?_ ?_ hl.1 hl.2 k3 k4⟩
            · simpa [Membership.A] using hx
            · simpa [Membership.V] using hv
          · cases hf
      · cases hg

/-- C39: so the number of voters is not lowered below the minimum nor raised above the maximum. -/
theorem C39_sizes (gc : GroupCfg) (rc : RegroupCfg) {s : Node P} (hs : ∀ p ∈ s.membership.all, pid (str p) = some p) (h : Sound s) {member : Bool}
    {g : List (Bytes × Bool)} (hg : nextReplicaGroup str gc rc member s = some g) :
    ∃ m', fromProto (g.map fun r => (pid r.1, r.2)) = .ok m' ∧
      (m'.voting.length < s.membership.voting.length → gc.minVoting ≤ m'.voting.length) ∧
      (s.membership.voting.length < m'.voting.length → m'.voting.length ≤ gc.maxVoting) := by
  obtain ⟨m', h1, h2, h3⟩ := C39_regroup gc rc hs h hg
  refine ⟨m', h1, ?_⟩
  rw [← card_V h2, ← card_V h.wf]
  cases h3 with
  | promote x hx hv room live best ha hV =>
    rw [hV, Finset.card_insert_of_notMem hv]
    omega
  | demote x hv spare known lost ha hV =>
    rw [hV, Finset.card_erase_of_mem hv]
    omega
  | drop x hx hv known lost ha hV => rw [hV]; omega

/-- C39: the leader proposes nothing only if nothing is to be done. -/
theorem C39_complete (gc : GroupCfg) (rc : RegroupCfg) (hrc : rc.election < 2 ^ 32) {s : Node P}
    (hs : ∀ p ∈ s.membership.all, pid (str p) = some p) (h : Sound s) (hl : s.role = .leader) (hg : nextReplicaGroup str gc rc true s = none) (A' V' : Finset P) :
    ¬ Regroup gc rc (lastSeen s) (Membership.A s.membership) (Membership.V s.membership) A' V' := by
  have hlead : s.leader ≠ none := by simp [Node.leader, hl]
  unfold nextReplicaGroup at hg
  simp only [Bool.true_eq_false, if_false, hlead] at hg
  cases hp : promotion str gc rc s with
  | some g => rw [hp] at hg; cases hg
  | none =>
    rw [hp] at hg
    simp only at hg
    cases hd : demotion str gc rc s with
    | some g => rw [hd] at hg; cases hg
    | none =>
      rw [hd] at hg
      simp only at hg
      intro hR
      cases hR with
      | promote x hx hv room live best ha hV =>
        have hx' : x ∈ s.membership.all := by simpa [Membership.A] using hx
        have hv' : x ∉ s.membership.voting := by simpa [Membership.V] using hv
        rw [card_V h.wf] at room
        unfold promotion at hp
        rw [if_pos ⟨room, spare_length h.wf h.sub hx' hv'⟩] at hp
        obtain ⟨h1, h2⟩ := bestSpare_spec s s.membership.all none invalidTicks [] rfl (by simp)
        generalize hb : bestSpare s s.membership.all none invalidTicks = b at h1 h2 hp
        obtain ⟨bst, least⟩ := b
        simp only [List.nil_append] at h1 h2
        have hle := h2 x hx' hv'
        cases bst with
        | none =>
          simp only at h1
          simp only [h1, invalidTicks] at hle
          omega
        | some y =>
          simp only at hp h1
          rw [if_pos (by omega), setVoting_eq (proto_keys hs h.wf) (proto_mem h1.1)] at hp
          cases hp
      | demote x hv spare known lost ha hV =>
        have hv' : x ∈ s.membership.voting := by simpa [Membership.V] using hv
        rw [card_V h.wf] at spare
        unfold demotion at hd
        rw [if_pos spare, List.findSome?_eq_none_iff] at hd
        have := hd x hv'
        rw [if_pos ⟨known, lost⟩, setVoting_eq (proto_keys hs h.wf) (proto_mem (h.sub hv'))] at this
        cases this
      | drop x hx hv known lost ha hV =>
        have hx' : x ∈ s.membership.all := by simpa [Membership.A] using hx
        have hv' : x ∉ s.membership.voting := by simpa [Membership.V] using hv
        unfold removal at hg
        rw [if_pos (spare_length h.wf h.sub hx' hv'), List.findSome?_eq_none_iff] at hg
        have := hg x hx'
        rw [if_neg hv', if_pos ⟨known, lost⟩, eraseReplica_eq (proto_keys hs h.wf) (proto_mem hx')] at this
        cases this

/-- C39, for configurations with `super_majority < min_voting_replicas`: the proposed change always passes the checks of
`Raft::LogRequest`, except that nothing is accepted while another change is not committed or leadership is being given up. Not shown,
because false (`C39_false_small_minimum`): the same for all configurations that `ValidateRaftGroupConfig` accepts. -/
theorem C39_accepted_partial (gc : GroupCfg) (rc : RegroupCfg) {v : Env P} {s : Node P} (hs : ∀ p ∈ s.membership.all, v.pid (str p) = some p)
    (h : Sound s)
    (hl : s.role = .leader) (hsm : s.superMajority = gc.superMajority) (hmin : gc.superMajority < gc.minVoting)
    (hsz : s.membership.all.length < 2 ^ 64) (hrel : s.relinquishing = false) (hunc : s.uncommitted = []) {member : Bool}
    {g : List (Bytes × Bool)} (hg : nextReplicaGroup str gc rc member s = some g) : s.logRequestCheck v (.membership g) = none := by
  obtain ⟨m', h1, h2, h3⟩ := C39_regroup gc rc hs h hg
  have hmem : s.mem = s.membership := by simp [Node.membership, hunc]
  have hme := h.lead hl
  have hmeV : s.me ∈ Membership.V s.membership := by simpa [Membership.V] using hme
  have hsubF : Membership.V s.membership ⊆ Membership.A s.membership := by
    intro y hy
    simp only [Membership.V, Membership.A, List.mem_toFinset] at *
    exact h.sub hy
  have hunk : lastSeen s s.me = invalidTicks := by
    simp [lastSeen, hl, h.self hl]
  have hAcc : Acceptable s.me s.superMajority (Membership.A s.membership) (Membership.V s.membership) (Membership.A m') (Membership.V m') := by
    cases h3 with
    | promote x hx hv room live best ha hV =>
      rw [ha, hV]
      refine ⟨.promote x hv rfl rfl, Finset.mem_insert_of_mem hmeV, Finset.insert_subset hx hsubF, ?_⟩
      rw [Finset.card_insert_of_notMem hv]
      omega
    | demote x hv spare known lost ha hV =>
      rw [ha, hV]
      refine ⟨.demote x hv rfl rfl, Finset.mem_erase.mpr ⟨?_, hmeV⟩, (Finset.erase_subset _ _).trans hsubF, ?_⟩
      · rintro rfl; exact known hunk
      · rw [Finset.card_erase_of_mem hv]
        omega
    | drop x hx hv known lost ha hV =>
      rw [ha, hV]
      refine ⟨.leave x hx rfl rfl, hmeV, ?_, fun h => h⟩
      intro y hy
      exact Finset.mem_erase.mpr ⟨fun e => hv (e ▸ hy), hsubF hy⟩
  have hAlen : m'.all.length < 2 ^ 64 := by
    rw [← card_A h2]
    have : (Membership.A m').card ≤ (Membership.A s.membership).card := by
      cases h3 with
      | promote x hx hv room live best ha hV => rw [ha]
      | demote x hv spare known lost ha hV => rw [ha]
      | drop x hx hv known lost ha hV => rw [ha]; exact Finset.card_le_card (Finset.erase_subset _ _)
    rw [card_A h.wf] at this
    omega
  have hVlen : m'.voting.length < 2 ^ 64 := by
    rw [← card_V h2]
    have := Finset.card_le_card hAcc.subset
    rw [card_A h2] at this
    omega
  simp only [logRequestCheck]
  rw [if_neg (by simp [hl, hrel]), if_neg (by simp [hunc]), h1]
  simp only [hmem]
  rw [(C25_progression_exact s.me s.superMajority s.membership m' h.wf h2 hAlen hVlen).mpr hAcc]
  rfl

/-! ### Witnesses and examples -/

section
open Core.Play Raft.Play Svr.Props.Rejoin Svr.Props.RaftGroup

/-- The state of replica 1 in a table. -/
def stateOf (Y : TTab Svr.DB2.DB Svr.DB2.Resp) (p : Nat) : Option (Node Nat) := (Raft.Play.look p Y.X.T.rows).map Prod.fst

theorem stateOf_node {Y : TTab Svr.DB2.DB Svr.DB2.Resp} {p : Nat} {s : Node Nat} (h : stateOf Y p = some s) :
    Y.town.G.W.node p = some s := h

/-- What the leader of a group does next. -/
def proposal (gc : GroupCfg) (rc : RegroupCfg) (Y : TTab Svr.DB2.DB Svr.DB2.Resp) (p : Nat) : Option (List (Bytes × Bool)) :=
  (stateOf Y p).bind fun s => nextReplicaGroup calm.str gc rc true s

def refusal (g : List (Bytes × Bool)) (Y : TTab Svr.DB2.DB Svr.DB2.Resp) (p : Nat) : Option RErr :=
  (stateOf Y p).bind fun s => s.logRequestCheck calm.raft.v (.membership g)

/-- 2 is silent for one tick. -/
def quietActs : List TAct := joinActs ++ [tick 1]

def quietOk (Y : TTab Svr.DB2.DB Svr.DB2.Resp) : Bool :=
  noColl (hashedBy Y.X.T) && memberOf Y 1 && (stateOf Y 1).any (fun s => decide (s.role = .leader) && decide (s.uncommitted = []) &&
    decide (s.relinquishing = false) && decide (s.membership = ⟨[1, 2], [1, 2]⟩)) &&
  decide (proposal ⟨1, 3, 1⟩ ⟨1, 0, 0⟩ Y 1 = some [([1], true), ([2], false)]) &&
  decide (refusal [([1], true), ([2], false)] Y 1 = some (.membership .superMajorityLost))

set_option maxRecDepth 100000 in
theorem quiet : (tplay calm fast quietActs TTab.none).any quietOk = true := by decide +kernel

/-- **C39 fails for some configurations**: `ValidateRaftGroupConfig` accepts a `super_majority` that is not below
`min_voting_replicas`. A leader with two voters then proposes to demote the silent one, on every tick, and the proposal never passes the
membership rule. -/
theorem C39_false_small_minimum : ∃ (gc : GroupCfg) (rc : RegroupCfg) (c : Site Nat Svr.DB2.DB Svr.DB2.Log Svr.DB2.Resp)
    (X : Town Nat Svr.DB2.DB Svr.DB2.Resp) (s : Node Nat) (g : List (Bytes × Bool)), gc.validate = true ∧ c.raft.sm = gc.superMajority ∧
    Proper c.raft ∧ SerInj c.raft.v ∧ TReach c false X ∧ NoCollision c.raft.v X.G.W.Hashed ∧ X.G.W.node 1 = some s ∧ s.role = .leader ∧
    s.uncommitted = [] ∧ s.relinquishing = false ∧ nextReplicaGroup c.str gc rc true s = some g ∧
    s.logRequestCheck c.raft.v (.membership g) = some (.membership .superMajorityLost) := by
  have h := quiet
  rw [Option.any_eq_true] at h
  obtain ⟨Y, h1, h2⟩ := h
  simp only [quietOk, Bool.and_eq_true, decide_eq_true_eq] at h2
  obtain ⟨⟨⟨⟨k1, k2⟩, k3⟩, k4⟩, k5⟩ := h2
  rw [Option.any_eq_true] at k3
  obtain ⟨s, k6, k7⟩ := k3
  simp only [Bool.and_eq_true, decide_eq_true_eq] at k7
  obtain ⟨⟨⟨k7, k8⟩, k9⟩, k10⟩ := k7
  simp only [proposal, refusal, k6, Option.bind_some] at k4 k5
  exact ⟨⟨1, 3, 1⟩, ⟨1, 0, 0⟩, calm, Y.town, s, _, by decide, rfl,
    ⟨⟨by simp [calm, town, SSorted, Raft.Membership.first], by simp [calm, town, SSorted, Raft.Membership.first]⟩,
      by simp [calm, town, Raft.Membership.first], by simp [calm, town, Raft.Membership.first], by simp [calm]⟩, serInj_steady,
    tplay_reach (.inr rfl) h1 .empty, noColl_table k1, stateOf_node k6, k7, k8, k9, k4, k5⟩

/-- The same state meets the hypotheses of the theorems above (with `super_majority` 1 and a minimum of 1, of all but the last). -/
example : ∃ (Y : TTab Svr.DB2.DB Svr.DB2.Resp) (s : Node Nat), stateOf Y 1 = some s ∧ Sound s ∧ s.role = .leader ∧
    (∀ p ∈ s.membership.all, calm.raft.v.pid (calm.str p) = some p) ∧
    nextReplicaGroup calm.str ⟨1, 3, 1⟩ ⟨1, 0, 0⟩ true s = some [([1], true), ([2], false)] := by
  have h := quiet
  rw [Option.any_eq_true] at h
  obtain ⟨Y, h1, h2⟩ := h
  simp only [quietOk, Bool.and_eq_true, decide_eq_true_eq] at h2
  obtain ⟨⟨⟨⟨k1, k2⟩, k3⟩, k4⟩, k5⟩ := h2
  rw [Option.any_eq_true] at k3
  obtain ⟨s, k6, k7⟩ := k3
  simp only [Bool.and_eq_true, decide_eq_true_eq] at k7
  obtain ⟨⟨⟨k7, k8⟩, k9⟩, k10⟩ := k7
  simp only [proposal, k6, Option.bind_some] at k4
  have hP : Proper calm.raft :=
    ⟨⟨by simp [calm, town, SSorted, Raft.Membership.first], by simp [calm, town, SSorted, Raft.Membership.first]⟩,
      by simp [calm, town, Raft.Membership.first], by simp [calm, town, Raft.Membership.first], by simp [calm]⟩
  refine ⟨Y, s, k6, sound_of_reachable hP (by simp [calm, town, Raft.Membership.first])
    (tplay_reach (c := calm) (again := false) (.inr rfl) h1 .empty).grid.raft (noColl_table k1) serInj_steady (stateOf_node k6), k7, ?_, k4⟩
  rw [k10]
  decide

/-- Three voters and a spare, with `super_majority` 1 and a minimum of 2: the leader demotes the silent voter 2, the rule accepts. -/
def quorate : Node Nat :=
  { base 5 1 ⟨[1, 2, 3, 4], [1, 2, 3]⟩ (Log.new 1000) fast true 1 with
    role := .leader
    followers := ((OMap.empty.insert 2 { next := 1, lastSeen := 9 }).insert 3 { next := 1, lastSeen := 0 }).insert 4 { next := 1, lastSeen := 9 } }

example : Sound quorate ∧ quorate.role = .leader ∧ quorate.relinquishing = false ∧ quorate.uncommitted = [] ∧
    (∀ p ∈ quorate.membership.all, calm.raft.v.pid (calm.str p) = some p) ∧
    nextReplicaGroup calm.str ⟨2, 3, 1⟩ ⟨5, 8, 8⟩ true quorate = some [([1], true), ([2], false), ([3], true), ([4], false)] ∧
    nextReplicaGroup calm.str ⟨2, 4, 1⟩ ⟨10, 8, 8⟩ true quorate = some [([1], true), ([2], true), ([3], true), ([4], true)] ∧
    nextReplicaGroup calm.str ⟨3, 3, 1⟩ ⟨10, 8, 8⟩ true quorate = some [([1], true), ([2], true), ([3], true)] ∧
    nextReplicaGroup calm.str ⟨3, 3, 1⟩ ⟨10, 8, 9⟩ true quorate = none := by
  refine ⟨⟨⟨by simp [quorate, base, Node.membership, SSorted], by simp [quorate, base, Node.membership, SSorted]⟩, by decide, fun _ => by decide, fun _ => by decide +kernel⟩, rfl, rfl, rfl, by decide, by decide +kernel,
    by decide +kernel, by decide +kernel, by decide +kernel⟩

def pairOk (Y : TTab Svr.DB2.DB Svr.DB2.Resp) : Bool :=
  noColl (hashedBy Y.X.T) && memberOf Y 1 && (stateOf Y 1).any (fun s => decide (s.role = .leader) && decide (s.uncommitted = []) &&
    decide (s.membership.voting.length = 2))

set_option maxRecDepth 100000 in
theorem pair : (tplay calm fast joinActs TTab.none).any pairOk = true := by decide +kernel

/-- Only the changes a leader makes *by itself* keep to `max_voting_replicas`: a spare replica whose host asks for it
(`Core::HandleRequestRaftVoting`, enclave/core/core.cc:1473-1504) is made a voter whatever the maximum, although the comment there says
that the leader will enforce it. Here the group has two voters and `max_voting_replicas` can be 1. -/
theorem C39_requested_voters_exceed_maximum : ∃ (gc : GroupCfg) (c : Site Nat Svr.DB2.DB Svr.DB2.Log Svr.DB2.Resp)
    (X : Town Nat Svr.DB2.DB Svr.DB2.Resp) (s : Node Nat), gc.validate = true ∧ c.raft.sm = gc.superMajority ∧ TReach c false X ∧
    X.G.W.node 1 = some s ∧ s.role = .leader ∧ s.uncommitted = [] ∧ gc.maxVoting < s.membership.voting.length := by
  have h := pair
  rw [Option.any_eq_true] at h
  obtain ⟨Y, h1, h2⟩ := h
  simp only [pairOk, Bool.and_eq_true] at h2
  obtain ⟨⟨k1, k2⟩, k3⟩ := h2
  rw [Option.any_eq_true] at k3
  obtain ⟨s, k6, k7⟩ := k3
  simp only [Bool.and_eq_true, decide_eq_true_eq] at k7
  exact ⟨⟨1, 1, 1⟩, calm, Y.town, s, by decide, rfl, tplay_reach (.inr rfl) h1 .empty, stateOf_node k6, k7.1.1, k7.1.2, by rw [k7.2]; decide⟩

end

end Svr.Props.Regroup
