import Verif.Core.GroupRequest
import Verif.Props.Write

/-!
# C108: what a replica can change in the group by asking for it
-/

namespace Svr.Props.GroupRequest
open Svr Svr.Raft Svr.Raft.Node Svr.Props.RaftNode
open Svr.Core (Keeper WErr Kind)
open Svr.Props.Write (Entered passed elected)
variable {P : Type} [LinearOrder P] {v : Env P} {G0 : Bytes × Bytes → Prop}

/-- The change that `frm` may bring about by asking: it is added without a vote, or it is a member without a vote and gets one, or it is removed. All others
stay as they are. -/
def Change (old : Membership P) (frm : P) (new : Membership P) : Kind → Prop
  | .member => frm ∉ old.all ∧ (∀ x, x ∈ new.all ↔ x ∈ old.all ∨ x = frm) ∧ ∀ x, x ∈ new.voting ↔ x ∈ old.voting
  | .voter => frm ∈ old.all ∧ frm ∉ old.voting ∧ (∀ x, x ∈ new.all ↔ x ∈ old.all) ∧ ∀ x, x ∈ new.voting ↔ x ∈ old.voting ∨ x = frm
  | .removal => frm ∈ old.all ∧ (∀ x, x ∈ new.all ↔ x ∈ old.all ∧ x ≠ frm) ∧ ∀ x, x ∈ new.voting ↔ x ∈ old.voting ∧ x ≠ frm

/-- An accepted change of the membership can be read. -/
theorem readable {s s' : Node P} {g : List (Bytes × Bool)} {r : Except RErr Loc} {loc : Loc} (h : s.logRequest v (.membership g) = .ok (s', r)) (hr : r = .ok loc) :
    ∃ m, fromProto (g.map fun r => (v.pid r.1, r.2)) = .ok m := by
  subst hr
  unfold logRequest at h
  split at h
  · cases h
  rename_i hc
  simp only [logRequestCheck] at hc
  split at hc
  · cases hc
  split at hc
  · cases hc
  cases hm : fromProto (g.map fun r => (v.pid r.1, r.2)) with
  | error e => rw [hm] at hc; cases hc
  | ok m => exact ⟨m, rfl⟩

theorem inProto {str : P → Bytes} {pid : Bytes → Option P} {m : Membership P} (hp : ∀ x ∈ m.all, pid (str x) = some x) {x : P} {b : Bool} {f : Bytes → Bool} :
    (some x, b) ∈ ((Core.protoOf str m).filter fun r => f r.1).map (fun r => (pid r.1, r.2)) ↔ x ∈ m.all ∧ b = decide (x ∈ m.voting) ∧ f (str x) = true := by
  simp only [Core.protoOf, List.mem_map, List.mem_filter, Prod.exists, Prod.mk.injEq]
  constructor
  · rintro ⟨s, c, ⟨⟨y, hy, rfl, rfl⟩, hf⟩, h1, rfl⟩
    rw [hp y hy] at h1
    cases h1
    exact ⟨hy, rfl, hf⟩
  · rintro ⟨hx, rfl, hf⟩
    exact ⟨str x, _, ⟨⟨x, hx, rfl, rfl⟩, hf⟩, hp x hx, rfl⟩

theorem inAll {str : P → Bytes} {pid : Bytes → Option P} {m : Membership P} (hp : ∀ x ∈ m.all, pid (str x) = some x) {x : P} {b : Bool} :
    (some x, b) ∈ (Core.protoOf str m).map (fun r => (pid r.1, r.2)) ↔ x ∈ m.all ∧ b = decide (x ∈ m.voting) := by
  have h := inProto (b := b) (x := x) (f := fun _ => true) hp
  simpa using h

theorem has {str : P → Bytes} {pid : Bytes → Option P} {m : Membership P} {frm : P} (hp : ∀ x ∈ frm :: m.all, pid (str x) = some x) :
    (Core.protoOf str m).any (fun r => decide (r.1 = str frm)) = true ↔ frm ∈ m.all := by
  simp only [Core.protoOf, List.any_map, List.any_eq_true, Function.comp, decide_eq_true_eq]
  constructor
  · rintro ⟨y, hy, h⟩
    have h1 := hp y (by simp [hy])
    rw [h, hp frm (by simp)] at h1
    cases h1
    exact hy
  · exact fun h => ⟨frm, h, rfl⟩

theorem change {str : P → Bytes} {pid : Bytes → Option P} {m n : Membership P} {frm : P} {q : Kind} {g : List (Bytes × Bool)}
    (hp : ∀ x ∈ frm :: m.all, pid (str x) = some x) (hsub : ∀ x ∈ m.voting, x ∈ m.all) (h : Core.nextGroup str m frm q = some g)
    (hn : fromProto (g.map fun r => (pid r.1, r.2)) = .ok n) : Change m frm n q := by
  have hp' : ∀ x ∈ m.all, pid (str x) = some x := fun x hx => hp x (by simp [hx])
  obtain ⟨_, _, ha, hv⟩ := fromProtoLoop_ok _ ⟨[], []⟩ n ⟨List.Pairwise.nil, List.Pairwise.nil⟩ (fun _ h => h) hn
  cases q with
  | member =>
    simp only [Core.nextGroup] at h
    split at h
    · cases h
    rename_i hx
    rw [has hp] at hx
    cases h
    refine ⟨hx, fun x => ?_, fun x => ?_⟩
    · rw [ha]
      simp only [List.map_append, List.mem_append, inAll hp', List.map_cons, List.map_nil, List.mem_singleton, Prod.mk.injEq, hp frm (by simp), Option.some.injEq,
        List.not_mem_nil, false_or]
      constructor
      · rintro ⟨b, h | h⟩
        · exact .inl h.1
        · exact .inr h.1
      · rintro (h | h)
        · exact ⟨_, .inl ⟨h, rfl⟩⟩
        · exact ⟨_, .inr ⟨h, rfl⟩⟩
    · rw [hv]
      simp only [List.map_append, List.mem_append, inAll hp', List.map_cons, List.map_nil, List.mem_singleton, Prod.mk.injEq,
        List.not_mem_nil, false_or]
      constructor
      · rintro (h | h)
        · simpa using h.2
        · exact absurd h.2 (by simp)
      · exact fun h => .inl ⟨hsub x h, by simp [h]⟩
  | voter =>
    simp only [Core.nextGroup] at h
    split at h
    · cases h
    rename_i h1
    split at h
    · cases h
    rename_i h2
    cases h
    rw [not_not] at h1
    have key : ∀ x b, (some x, b) ∈ ((Core.protoOf str m).map fun r => if r.1 = str frm then (r.1, true) else r).map (fun r => (pid r.1, r.2)) ↔
        x ∈ m.all ∧ b = decide (x ∈ m.voting ∨ x = frm) := by
      intro x b
      simp only [Core.protoOf, List.map_map, List.mem_map, Function.comp]
      constructor
      · rintro ⟨y, hy, h⟩
        by_cases hyf : str y = str frm
        · have e : y = frm := by
            have h3 := hp' y hy
            rw [hyf, hp' frm h1] at h3
            cases h3; rfl
          subst e
          rw [if_pos rfl] at h
          simp only [hp' y hy, Prod.mk.injEq, Option.some.injEq] at h
          obtain ⟨rfl, rfl⟩ := h
          exact ⟨hy, by simp⟩
        · rw [if_neg hyf] at h
          simp only [hp' y hy, Prod.mk.injEq, Option.some.injEq] at h
          obtain ⟨rfl, rfl⟩ := h
          have e : y ≠ frm := fun h => hyf (by rw [h])
          exact ⟨hy, by simp [e]⟩
      · rintro ⟨hx, rfl⟩
        refine ⟨x, hx, ?_⟩
        by_cases e : x = frm
        · subst e
          rw [if_pos rfl]
          simp [hp' x hx]
        · have : str x ≠ str frm := fun h3 => e (by
            have h4 := hp' x hx
            rw [h3, hp' frm h1] at h4
            cases h4; rfl)
          rw [if_neg this]
          simp [hp' x hx, e]
    refine ⟨h1, h2, fun x => ?_, fun x => ?_⟩
    · rw [ha]
      simp only [key, List.not_mem_nil, false_or]
      exact ⟨fun ⟨_, h⟩ => h.1, fun h => ⟨_, h, rfl⟩⟩
    · rw [hv]
      simp only [key, List.not_mem_nil, false_or]
      constructor
      · rintro ⟨_, h⟩
        simpa using h
      · rintro (h | rfl)
        · exact ⟨hsub x h, by simp [h]⟩
        · exact ⟨h1, by simp⟩
  | removal =>
    simp only [Core.nextGroup] at h
    split at h
    · rename_i hx
      rw [has hp] at hx
      cases h
      have ne : ∀ x ∈ m.all, (decide (str x ≠ str frm) = true ↔ x ≠ frm) := fun x hm => by
        rw [decide_eq_true_eq]
        refine not_congr ⟨fun h3 => ?_, fun h3 => by rw [h3]⟩
        have h4 := hp' x hm
        rw [h3, hp' frm hx] at h4
        cases h4; rfl
      have key : ∀ x b, (some x, b) ∈ ((Core.protoOf str m).filter fun r => decide (r.1 ≠ str frm)).map (fun r => (pid r.1, r.2)) ↔
          x ∈ m.all ∧ b = decide (x ∈ m.voting) ∧ x ≠ frm := fun x b => by
        rw [inProto (f := fun y => decide (y ≠ str frm)) hp']
        exact and_congr_right fun hm => and_congr_right fun _ => ne x hm
      refine ⟨hx, fun x => ?_, fun x => ?_⟩
      · rw [ha]
        simp only [key, List.not_mem_nil, false_or]
        exact ⟨fun ⟨_, h⟩ => ⟨h.1, h.2.2⟩, fun h => ⟨_, h.1, rfl, h.2⟩⟩
      · rw [hv]
        simp only [key, List.not_mem_nil, false_or]
        constructor
        · rintro ⟨_, h, h'⟩
          exact ⟨by simpa using h, h'⟩
        · exact fun h => ⟨hsub x h.1, by simp [h.1], h.2⟩
    · cases h

/-- **C108**: when a replica asks to join, to vote or to be removed and the request is taken, then by a leader that is part of a group, and the new membership
that enters the log differs from the present one in the place of that replica only, as it asked. To join or to vote, the leader must know the time of a quorum.
Missing: the same for removals (`C108_removal_without_time`). -/
theorem C108_own_place_partial {str : P → Bytes} {k : Keeper P} (hs : Reached v G0 k.node) {frm : P} {q : Kind} {s' : Node P} {loc : Loc}
    (hp : ∀ x ∈ frm :: k.node.membership.all, v.pid (str x) = some x) (hsub : ∀ x ∈ k.node.membership.voting, x ∈ k.node.membership.all)
    (h : k.handleGroup v str frm q = .ok (s', .ok loc)) : k.part = true ∧ (q ≠ .removal → k.timed = true) ∧
      ∃ g n, Entered k.node s' (.membership g) loc ∧ fromProto (g.map fun r => (v.pid r.1, r.2)) = .ok n ∧ Change k.node.membership frm n q := by
  unfold Keeper.handleGroup at h
  split at h
  · cases h
  rename_i h1
  split at h
  · cases h
  rename_i h2
  cases hg : Core.nextGroup str k.node.membership frm q with
  | none => rw [hg] at h; cases h
  | some g =>
    rw [hg] at h
    obtain ⟨⟨s1, r⟩, h4, h⟩ := Out.bind_eq_ok.mp h
    cases r with
    | error x => cases h
    | ok l =>
      cases h
      obtain ⟨n, hn⟩ := readable h4 rfl
      exact ⟨by simpa using h1, fun hq => by by_contra hx; exact h2 ⟨hq, by simpa using hx⟩, g, n, Write.entered hs h4, hn, change hp hsub hg hn⟩

/-! ### Witnesses -/

def str : Nat → Bytes := fun n => [UInt8.ofNat n]

set_option maxRecDepth 100000 in
theorem facts : ∃ s : Node Nat, Reached toy (fun _ => False) s ∧ s.membership = three ∧
    passed ((Keeper.mk true s 3 false).handleGroup toy str 2 .removal) = true ∧ passed ((Keeper.mk true s 3 true).handleGroup toy str 4 .member) = true := by
  obtain ⟨s0, s, tr, h1, h2, h3⟩ := holds_run (mem := three) (cfg := fast) (ops := elected)
    (f := fun s _ => decide (s.membership.all = three.all ∧ s.membership.voting = three.voting) && (passed ((Keeper.mk true s 3 false).handleGroup toy str 2 .removal) &&
      passed ((Keeper.mk true s 3 true).handleGroup toy str 4 .member))) (by decide) (by decide +kernel)
  simp only [Bool.and_eq_true, decide_eq_true_eq] at h3
  refine ⟨s, ⟨_, s0, tr, h1, h2⟩, ?_, h3.2⟩
  obtain ⟨⟨a, b⟩, _⟩ := h3
  cases hm : s.membership
  rw [hm] at a b
  simp only at a b
  rw [a, b]

/-- **C108 fails for removals**: a leader that does not know the time of a quorum takes the request of a voter to be removed. -/
theorem C108_removal_without_time : ∃ (k : Keeper Nat) (s' : Node Nat) (loc : Loc), Reached toy (fun _ => False) k.node ∧ k.timed = false ∧
    2 ∈ k.node.membership.voting ∧ k.handleGroup toy str 2 .removal = .ok (s', .ok loc) := by
  obtain ⟨s, hs, hm, h, _⟩ := facts
  unfold passed at h
  split at h
  · rename_i s' loc h'
    exact ⟨⟨true, s, 3, false⟩, s', loc, hs, rfl, by rw [hm]; decide, h'⟩
  · cases h

/-- The hypotheses of `C108_own_place_partial` are met by replica 4, which asks to join a group of three. -/
example : ∃ (k : Keeper Nat) (s' : Node Nat) (loc : Loc), Reached toy (fun _ => False) k.node ∧ (∀ x ∈ 4 :: k.node.membership.all, toy.pid (str x) = some x) ∧
    (∀ x ∈ k.node.membership.voting, x ∈ k.node.membership.all) ∧ k.handleGroup toy str 4 .member = .ok (s', .ok loc) := by
  obtain ⟨s, hs, hm, _, h⟩ := facts
  unfold passed at h
  split at h
  · rename_i s' loc h'
    exact ⟨⟨true, s, 3, true⟩, s', loc, hs, by rw [hm]; decide, by rw [hm]; decide, h'⟩
  · cases h

end Svr.Props.GroupRequest
