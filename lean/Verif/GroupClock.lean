import Verif.OMap
import Verif.Bytes
import Mathlib.Data.Int.Order.Basic
import Mathlib.Data.List.Sort

/-!
# Model of `enclave/groupclock/groupclock.{h,cc}`

Peer ids are byte strings, compared like `std::array<uint8_t,32>`; times are `time_t` (`Int`, no
arithmetic is done on them).
-/

namespace Svr.GroupClock

/-- `Clock` (enclave/groupclock/groupclock.h:30-32). -/
structure Clock where
  localTime : Int
  remotes : OMap Bytes Int

/-- `Clock::Clock` (groupclock.h:23). -/
def init : Clock := ⟨0, OMap.empty⟩
/-- `Clock::SetLocalTime` (groupclock.cc:12-14). -/
def setLocal (c : Clock) (t : Int) : Clock := { c with localTime := t }
/-- `Clock::SetRemoteTime` (groupclock.cc:16-19). -/
def setRemote (c : Clock) (p : Bytes) (t : Int) : Clock := { c with remotes := c.remotes.insert p t }

/-- The merge loop of `Clock::GetTime` (groupclock.cc:28-40): walks the sorted set of peers and the sorted
map together, writing into `secs`, a vector of `cap` elements of which the first `secs.length` are
filled. A write past the end is undefined behaviour. -/
def merge (cap : Nat) : List Bytes → List (Bytes × Int) → List Int → Out (List Int)
  | s :: st, (p, t) :: mt, secs =>
    if s < p then merge cap st ((p, t) :: mt) secs
    else if p < s then merge cap (s :: st) mt secs
    else if secs.length ≥ cap then .ub
    else merge cap st mt (secs ++ [t])
  | _, _, secs => .ok secs
termination_by a b => a.length + b.length

/-- `Clock::GetTime` (groupclock.cc:21-47): the time and the number of remotes used. `peers` are the
elements of the `std::set`, in order. -/
def getTime (c : Clock) (peers : List Bytes) : Out (Int × Nat) := do
  let secs ← merge (1 + peers.length) peers c.remotes.list [c.localTime]
  let sorted := secs.mergeSort (· ≤ ·)
  match sorted[secs.length / 2]? with
  | none => .ub
  | some t => pure (t, secs.length - 1)

theorem merge_spec (cap : Nat) : ∀ (st : List Bytes) (mt : List (Bytes × Int)) (secs : List Int),
    st.Pairwise (· < ·) → mt.Pairwise (fun a b => a.1 < b.1) → secs.length + st.length ≤ cap →
    merge cap st mt secs = .ok (secs ++ st.filterMap (fun p => OMap.findL p mt)) := by
  intro st mt secs
  induction st, mt, secs using merge.induct (cap := cap) with
  | case1 s st p t mt secs hlt ih =>
    intro h1 h2 h3
    unfold merge
    rw [if_pos hlt, ih (List.pairwise_cons.mp h1).2 h2 (by simp at h3; omega)]
    have : OMap.findL s ((p, t) :: mt) = none := by
      apply OMap.findL_none_of_forall
      intro q hq
      rcases List.mem_cons.mp hq with rfl | hq
      · exact ne_of_gt hlt
      · exact ne_of_gt (lt_trans hlt ((List.pairwise_cons.mp h2).1 q hq))
    rw [List.filterMap_cons, this]
  | case2 s st p t mt secs hlt hgt ih =>
    intro h1 h2 h3
    unfold merge
    rw [if_neg hlt, if_pos hgt, ih h1 (List.pairwise_cons.mp h2).2 h3]
    congr 2
    apply List.filterMap_congr
    intro q hq
    have : p ≠ q := by
      rcases List.mem_cons.mp hq with rfl | hq
      · exact ne_of_lt hgt
      · exact ne_of_lt (lt_trans hgt ((List.pairwise_cons.mp h1).1 q hq))
    simp [OMap.findL, this]
  | case3 s st p t mt secs hlt hgt hcap =>
    intro h1 h2 h3
    simp at h3
    omega
  | case4 s st p t mt secs hlt hgt hcap ih =>
    intro h1 h2 h3
    have e : p = s := le_antisymm (not_lt.mp hlt) (not_lt.mp hgt)
    subst e
    unfold merge
    rw [if_neg hlt, if_neg hgt, if_neg hcap,
      ih (List.pairwise_cons.mp h1).2 (List.pairwise_cons.mp h2).2 (by simp at h3 ⊢; omega)]
    rw [List.filterMap_cons]
    simp only [OMap.findL, if_true, List.append_assoc, List.singleton_append]
    congr 3
    apply List.filterMap_congr
    intro q hq
    have : p ≠ q := ne_of_lt ((List.pairwise_cons.mp h1).1 q hq)
    simp [this]
  | case5 st mt secs hno =>
    intro h1 h2 h3
    have : st.filterMap (fun p => OMap.findL p mt) = [] := by
      cases st with
      | nil => rfl
      | cons s st =>
        cases mt with
        | nil => rw [List.filterMap_eq_nil_iff]; intro a _; rfl
        | cons p mt => exact absurd rfl (hno s st p.1 p.2 mt rfl)
    rw [this, List.append_nil]
    cases st with
    | nil => unfold merge; rfl
    | cons s st =>
      cases mt with
      | nil => unfold merge; rfl
      | cons p mt => exact absurd rfl (hno s st p.1 p.2 mt rfl)

end Svr.GroupClock
