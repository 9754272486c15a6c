import Verif.GroupClock
import Mathlib.Data.List.Induction

/-!
# C44: the group clock tolerates a minority of wrong clocks
-/

namespace Svr.Props.GroupClock
open Svr.GroupClock

/-- Specification: the times used, the local one and those received from the given peers. -/
def timesUsed (c : Clock) (peers : List Bytes) : List Int := c.localTime :: peers.filterMap (fun p => c.remotes.find p)

theorem mem_of_sorted_le {l : List Int} (hs : l.Pairwise (· ≤ ·)) {i j : Nat} {a b : Int} (ha : l[i]? = some a)
    (hb : l[j]? = some b) (h : i ≤ j) : a ≤ b := by
  rcases Nat.eq_or_lt_of_le h with rfl | h
  · rw [ha] at hb; cases hb; exact le_refl _
  · obtain ⟨h1, h2⟩ := List.getElem?_eq_some_iff.mp ha
    obtain ⟨h3, h4⟩ := List.getElem?_eq_some_iff.mp hb
    rw [← h2, ← h4]
    exact List.pairwise_iff_getElem.mp hs i j h1 h3 h

/-- **C44**: whatever was reported, `GetTime` stays within its buffer, uses exactly the known times of the
given peers and the local one, returns one of them, and if more than half of them lie in an interval, so
does the result. -/
theorem C44_median_tolerates_minority (c : Clock) (peers : List Bytes) (hp : peers.Pairwise (· < ·)) :
    ∃ t, getTime c peers = .ok (t, (timesUsed c peers).length - 1) ∧ t ∈ timesUsed c peers ∧
      ∀ lo hi, (timesUsed c peers).length < 2 * (timesUsed c peers).countP (fun x => lo ≤ x ∧ x ≤ hi) → lo ≤ t ∧ t ≤ hi := by
  have hm : merge (1 + peers.length) peers c.remotes.list [c.localTime] = .ok (timesUsed c peers) :=
    merge_spec _ _ _ _ hp c.remotes.sorted (by simp)
  generalize hL : timesUsed c peers = L at hm
  have hpos : 0 < L.length := by rw [← hL]; simp [timesUsed]
  have hperm : (L.mergeSort (· ≤ ·)).Perm L := List.mergeSort_perm _ _
  have hsorted : (L.mergeSort (· ≤ ·)).Pairwise (· ≤ ·) := by
    have := List.pairwise_mergeSort (le := fun a b : Int => decide (a ≤ b))
      (by intro a b c h1 h2; simp at *; omega) (by intro a b; simp; omega) L
    simpa using this
  generalize hS : L.mergeSort (· ≤ ·) = S at hperm hsorted
  have hlen : S.length = L.length := hperm.length_eq
  obtain ⟨t, ht⟩ : ∃ t, S[L.length / 2]? = some t :=
    ⟨S[L.length / 2]'(by omega), List.getElem?_eq_getElem (by omega)⟩
  refine ⟨t, ?_, hperm.mem_iff.mp (List.mem_of_getElem? ht), ?_⟩
  · simp only [getTime, hm, Out.bind_ok, hS, ht, Out.pure_eq]
  · intro lo hi hmaj
    rw [← hperm.countP_eq] at hmaj
    have hsplit : ∀ k, S.countP (fun x => lo ≤ x ∧ x ≤ hi) =
        (S.take k).countP (fun x => lo ≤ x ∧ x ≤ hi) + (S.drop k).countP (fun x => lo ≤ x ∧ x ≤ hi) := by
      intro k
      conv => lhs; rw [← List.take_append_drop k S]
      rw [List.countP_append]
    constructor
    · by_contra hlt
      have h1 : (S.take (L.length / 2 + 1)).countP (fun x => lo ≤ x ∧ x ≤ hi) = 0 := by
        rw [List.countP_eq_zero]
        intro x hx
        obtain ⟨i, hi', rfl⟩ := List.mem_take_iff_getElem.mp hx
        have := mem_of_sorted_le hsorted (List.getElem?_eq_getElem (show i < S.length by omega)) ht (by omega)
        simp only [decide_eq_true_eq]
        omega
      have h2 : (S.drop (L.length / 2 + 1)).countP (fun x => lo ≤ x ∧ x ≤ hi) ≤ (S.drop (L.length / 2 + 1)).length :=
        List.countP_le_length
      rw [hsplit (L.length / 2 + 1), h1] at hmaj
      rw [List.length_drop] at h2
      omega
    · by_contra hlt
      have h1 : (S.drop (L.length / 2)).countP (fun x => lo ≤ x ∧ x ≤ hi) = 0 := by
        rw [List.countP_eq_zero]
        intro x hx
        obtain ⟨i, hi', rfl⟩ := List.mem_drop_iff_getElem.mp hx
        have := mem_of_sorted_le hsorted ht (List.getElem?_eq_getElem (show L.length / 2 + i < S.length by omega)) (by omega)
        simp only [decide_eq_true_eq]
        omega
      have h2 : (S.take (L.length / 2)).countP (fun x => lo ≤ x ∧ x ≤ hi) ≤ (S.take (L.length / 2)).length :=
        List.countP_le_length
      rw [hsplit (L.length / 2), h1] at hmaj
      rw [List.length_take] at h2
      omega

/-- Three honest clocks around 1000, two wrong ones: the result is honest. -/
def sample : Clock := setRemote (setRemote (setRemote (setRemote (setLocal init 1000) [1] (-5)) [2] 1001) [3] 999999) [4] 999
example : ∃ t, getTime sample [[1], [2], [3], [4], [5]] = .ok (t, 4) ∧ 999 ≤ t ∧ t ≤ 1001 := by
  obtain ⟨t, h1, _, h3⟩ := C44_median_tolerates_minority sample [[1], [2], [3], [4], [5]] (by decide)
  exact ⟨t, h1, h3 999 1001 (by decide)⟩

/-- What reaches the clock: the host's time, or a time a peer reports. -/
inductive Report
  | host (t : Int)
  | peer (p : Bytes) (t : Int)

def hear (c : Clock) : Report → Clock
  | .host t => setLocal c t
  | .peer p t => setRemote c p t

/-- Specification: the last time among the reports that `f` picks. -/
def latest (f : Report → Option Int) (rs : List Report) : Option Int := (rs.filterMap f).getLast?

def ofHost : Report → Option Int
  | .host t => some t
  | .peer _ _ => none

def ofPeer (p : Bytes) : Report → Option Int
  | .host _ => none
  | .peer q t => if q = p then some t else none

/-- Specification: the host's last time, 0 if there was none, and the last time of each of the given peers that reported any. -/
def lastReports (rs : List Report) (peers : List Bytes) : List Int :=
  (latest ofHost rs).getD 0 :: peers.filterMap (fun p => latest (ofPeer p) rs)

theorem latest_concat (f : Report → Option Int) (rs : List Report) (r : Report) :
    latest f (rs ++ [r]) = (f r).or (latest f rs) := by
  unfold latest
  rw [List.filterMap_append]
  cases h : f r <;> simp [h]

theorem hear_all (rs : List Report) : (rs.foldl hear init).localTime = (latest ofHost rs).getD 0 ∧
    ∀ p, (rs.foldl hear init).remotes.find p = latest (ofPeer p) rs := by
  induction rs using List.reverseRecOn with
  | nil => exact ⟨rfl, fun p => rfl⟩
  | append_singleton rs r ih =>
    rw [List.foldl_append, latest_concat]
    simp only [latest_concat, List.foldl_cons, List.foldl_nil]
    cases r with
    | host t => exact ⟨rfl, fun p => by rw [hear, setLocal]; exact (ih.2 p).trans rfl⟩
    | peer q t =>
      refine ⟨ih.1, fun p => ?_⟩
      rw [hear, setRemote]
      show (OMap.insert _ q t).find p = _
      rw [OMap.find_insert, ih.2]
      by_cases h : q = p <;> simp [ofPeer, h]

/-- **C44**: over any sequence of reports, the group time is the host's last time or the last one of a given peer, all of those that there
are count, and if more than half of them lie in an interval, so does the group time. What a peer said before its last report, and what others
than the given peers say, does not matter. -/
theorem C44_last_reports (rs : List Report) (peers : List Bytes) (hp : peers.Pairwise (· < ·)) :
    ∃ t, getTime (rs.foldl hear init) peers = .ok (t, (lastReports rs peers).length - 1) ∧ t ∈ lastReports rs peers ∧
      ∀ lo hi, (lastReports rs peers).length < 2 * (lastReports rs peers).countP (fun x => lo ≤ x ∧ x ≤ hi) → lo ≤ t ∧ t ≤ hi := by
  have h := C44_median_tolerates_minority (rs.foldl hear init) peers hp
  have e : timesUsed (rs.foldl hear init) peers = lastReports rs peers := by
    unfold timesUsed lastReports
    rw [(hear_all rs).1]
    simp only [(hear_all rs).2]
  rwa [e] at h

/-- A wrong peer that reports twice counts once. -/
example : lastReports [.host 1000, .peer [1] 7, .peer [2] 1001, .peer [1] 9, .peer [9] 5] [[1], [2], [3]] = [1000, 9, 1001] := by decide

end Svr.Props.GroupClock
