import Verif.Props.Family

/-!
# C83: limits when integrity checks fail

Someone who damages the integrity tree in a replica's memory makes `Verify` fail there, at requests of their choice. A request that cannot be
verified is refused and changes nothing, so the replicas' databases may differ from then on. Raft does not look at the databases, so all
replicas still apply the entries of one list. `answers` runs these entries at a replica; `path i` says for which accounts the walk to the root
succeeds when entry `i` is applied. A replica that joined has the database of another one, hence of another `path`.
-/

namespace Svr.Props.Tamper
open Svr Svr.Core Svr.Raft Svr.Spec Svr.Props.RaftGroup Svr.Props.Grid Svr.Props.Family

variable {P : Type} [LinearOrder P] {D L E : Type}

/-- The answers of a replica to the entries from the `i`-th on. -/
def answers (req : Entry → Option L) (run : (Bytes → Bool) → D → L → Out (D × E)) (path : Nat → Bytes → Bool) :
    Nat → D → List Entry → Out (D × List (Option E))
  | _, d, [] => .ok (d, [])
  | i, d, e :: H => match req e with
    | none => do
      let (d', rs) ← answers req run path (i + 1) d H
      pure (d', none :: rs)
    | some l => do
      let (d1, r) ← run (path i) d l
      let (d', rs) ← answers req run path (i + 1) d1 H
      pure (d', some r :: rs)

/-- A quantity that only entries of `R` for account `a` increase, and every answer of `C` to this account decreases, however checks end. -/
structure Gauge (run : (Bytes → Bool) → D → L → Out (D × E)) (inv : D → Prop) (valid : L → Prop) (key : L → Bytes) (a : Bytes) (R : L → Prop)
    (C : E → Prop) (left : D → Nat) : Prop where
  keep : ∀ path d l d' r, inv d → valid l → run path d l = .ok (d', r) → inv d'
  less : ∀ path d l d' r, inv d → valid l → run path d l = .ok (d', r) → ¬ (key l = a ∧ R l) → left d' ≤ left d
  spent : ∀ path d l d' r, inv d → valid l → run path d l = .ok (d', r) → key l = a → C r → left d' < left d

section
variable {req : Entry → Option L} {run : (Bytes → Bool) → D → L → Out (D × E)} {inv : D → Prop} {valid : L → Prop} {key : L → Bytes} {a : Bytes}
  {R : L → Prop} {C : E → Prop} {left : D → Nat}

theorem answers_length : ∀ {H : List Entry} {path : Nat → Bytes → Bool} {i : Nat} {d d' : D} {rs : List (Option E)},
    answers req run path i d H = .ok (d', rs) → rs.length = H.length
  | [], _, _, _, _, _, h => by cases h; rfl
  | e :: H, path, i, d, d', rs, h => by
    simp only [answers] at h
    split at h
    · obtain ⟨⟨d1, rs1⟩, h1, h⟩ := Out.bind_eq_ok.mp h
      cases h
      simp [answers_length h1]
    · obtain ⟨⟨d1, r⟩, _, h⟩ := Out.bind_eq_ok.mp h
      obtain ⟨⟨d2, rs1⟩, h1, h⟩ := Out.bind_eq_ok.mp h
      cases h
      simp [answers_length h1]

theorem answers_append : ∀ {H K : List Entry} {path : Nat → Bytes → Bool} {i : Nat} {d d' : D} {rs : List (Option E)},
    answers req run path i d (H ++ K) = .ok (d', rs) → ∃ d1 r1 r2, answers req run path i d H = .ok (d1, r1) ∧
      answers req run path (i + H.length) d1 K = .ok (d', r2) ∧ rs = r1 ++ r2
  | [], K, path, i, d, d', rs, h => ⟨d, [], rs, rfl, h, rfl⟩
  | e :: H, K, path, i, d, d', rs, h => by
    simp only [List.cons_append, answers] at h
    have el : i + (e :: H).length = i + 1 + H.length := by simp only [List.length_cons]; omega
    rw [el]
    split at h
    · rename_i he
      obtain ⟨⟨d1, rs1⟩, h1, h⟩ := Out.bind_eq_ok.mp h
      cases h
      obtain ⟨d2, r1, r2, k1, k2, rfl⟩ := answers_append h1
      exact ⟨d2, none :: r1, r2, by simp [answers, he, k1], k2, rfl⟩
    · rename_i l he
      obtain ⟨⟨d1, r⟩, h0, h⟩ := Out.bind_eq_ok.mp h
      obtain ⟨⟨d2, rs1⟩, h1, h⟩ := Out.bind_eq_ok.mp h
      cases h
      obtain ⟨d3, r1, r2, k1, k2, rfl⟩ := answers_append h1
      exact ⟨d3, some r :: r1, r2, by simp [answers, he, h0, k1], k2, rfl⟩

theorem answers_inv (hm : Gauge run inv valid key a R C left) (hv : ∀ e l, req e = some l → valid l) :
    ∀ {H : List Entry} {path : Nat → Bytes → Bool} {i : Nat} {d d' : D} {rs : List (Option E)}, inv d →
      answers req run path i d H = .ok (d', rs) → inv d'
  | [], _, _, _, _, _, hi, h => by cases h; exact hi
  | e :: H, path, i, d, d', rs, hi, h => by
    simp only [answers] at h
    split at h
    · obtain ⟨⟨d1, rs1⟩, h1, h⟩ := Out.bind_eq_ok.mp h
      cases h
      exact answers_inv hm hv hi h1
    · rename_i l he
      obtain ⟨⟨d1, r⟩, h0, h⟩ := Out.bind_eq_ok.mp h
      obtain ⟨⟨d2, rs1⟩, h1, h⟩ := Out.bind_eq_ok.mp h
      cases h
      exact answers_inv hm hv (hm.keep _ _ _ _ _ hi (hv e l he) h0) h1

/-- The entry at place `j` of `K` is one of account `a` and is answered with one of `C`. -/
def Hit (req : Entry → Option L) (key : L → Bytes) (a : Bytes) (C : E → Prop) (K : List Entry) (rs : List (Option E)) (j : Nat) : Prop :=
  ∃ e l r, K[j]? = some e ∧ req e = some l ∧ key l = a ∧ rs[j]? = some (some r) ∧ C r

/-- Hits at different places number at most what is left. -/
theorem hits_le (hm : Gauge run inv valid key a R C left) (hv : ∀ e l, req e = some l → valid l) :
    ∀ {K : List Entry} {path : Nat → Bytes → Bool} {i : Nat} {d d' : D} {rs : List (Option E)}, inv d → answers req run path i d K = .ok (d', rs) →
      (∀ j l, (∃ e, K[j]? = some e ∧ req e = some l) → key l = a → R l → Hit req key a C K rs j) →
      ∀ js : List Nat, js.Nodup → (∀ j ∈ js, Hit req key a C K rs j) → js.length ≤ left d
  | [], _, _, _, _, _, _, _, _, js, _, hj => by
    cases js with
    | nil => exact Nat.zero_le _
    | cons j js =>
      obtain ⟨e, _, _, h, _⟩ := hj j List.mem_cons_self
      simp at h
  | e :: K, path, i, d, d', rs, hi, h, hr, js, hnd, hj => by
    -- places after the first
    have rest : ∀ {d1 : D} {x : Option E} {rs1 : List (Option E)}, inv d1 → answers req run path (i + 1) d1 K = .ok (d', rs1) → rs = x :: rs1 →
        ((js.filter fun j => j ≠ 0).map (· - 1)).length ≤ left d1 := by
      intro d1 x rs1 hi1 h1 hrs
      have shift : ∀ j, Hit req key a C (e :: K) rs (j + 1) ↔ Hit req key a C K rs1 j := by
        intro j; rw [hrs]; simp [Hit]
      refine hits_le hm hv hi1 h1 ?_ _ ?_ ?_
      · intro j l ⟨e', h2, h3⟩ h4 h5
        exact (shift j).mp (hr (j + 1) l ⟨e', by simpa using h2, h3⟩ h4 h5)
      · refine (List.nodup_map_iff_inj_on (hnd.filter _)).mpr ?_
        intro x hx y hy hxy
        have hx := (List.mem_filter.mp hx).2
        have hy := (List.mem_filter.mp hy).2
        simp at hx hy
        omega
      · intro j hj'
        obtain ⟨k, hk, rfl⟩ := List.mem_map.mp hj'
        obtain ⟨hk1, hk2⟩ := List.mem_filter.mp hk
        simp at hk2
        obtain ⟨m, rfl⟩ : ∃ m, k = m + 1 := ⟨k - 1, by omega⟩
        exact (shift m).mp (hj _ hk1)
    have split1 : js.length ≤ (js.filter fun j => j ≠ 0).length + 1 := by
      have h1 : js.length = (js.filter fun j => j ≠ 0).length + (js.filter fun j => ¬ j ≠ 0).length := by
        have := List.length_eq_length_filter_add (l := js) (fun j => decide (j ≠ 0))
        simpa using this
      have h2 : (js.filter fun j => ¬ j ≠ 0).length ≤ 1 := by
        have hn := hnd.filter (fun j => decide (¬ j ≠ 0))
        have hs : (js.filter fun j => ¬ j ≠ 0) ⊆ [0] := by
          intro x hx
          have := (List.mem_filter.mp hx).2
          simp at this
          simp [this]
        simpa using (hn.subperm hs).length_le
      omega
    have split0 : (0 ∉ js) → js.length = (js.filter fun j => j ≠ 0).length := by
      intro h0
      rw [List.filter_eq_self.mpr]
      intro x hx
      simp only [ne_eq, decide_eq_true_eq]
      rintro rfl
      exact h0 hx
    simp only [answers] at h
    split at h
    · rename_i he
      obtain ⟨⟨d1, rs1⟩, h1, h⟩ := Out.bind_eq_ok.mp h
      cases h
      have h0 : 0 ∉ js := by
        intro hm0
        obtain ⟨e', l, r, k1, k2, _⟩ := hj 0 hm0
        simp at k1
        rw [← k1, he] at k2
        cases k2
      have := rest hi h1 rfl
      rw [List.length_map] at this
      rw [split0 h0]
      exact this
    · rename_i l he
      obtain ⟨⟨d1, r⟩, h0, h⟩ := Out.bind_eq_ok.mp h
      obtain ⟨⟨d2, rs1⟩, h1, h⟩ := Out.bind_eq_ok.mp h
      cases h
      have hi1 := hm.keep _ _ _ _ _ hi (hv e l he) h0
      have hrest := rest hi1 h1 rfl
      rw [List.length_map] at hrest
      by_cases hz : 0 ∈ js
      · obtain ⟨e', l', r', k1, k2, k3, k4, k5⟩ := hj 0 hz
        simp at k1 k4
        rw [← k1, he] at k2
        cases k2
        rw [← k4] at k5
        have := hm.spent _ _ _ _ _ hi (hv e l he) h0 k3 k5
        omega
      · rw [split0 hz]
        by_cases hR : key l = a ∧ R l
        · obtain ⟨e', l', r', k1, k2, k3, k4, k5⟩ := hr 0 l ⟨e, rfl, he⟩ hR.1 hR.2
          simp at k4
          rw [← k4] at k5
          have := hm.spent _ _ _ _ _ hi (hv e l he) h0 hR.1 k5
          omega
        · have := hm.less _ _ _ _ _ hi (hv e l he) h0 hR
          omega

end

/-- One replica: hits after an entry that leaves `N`, until the next entry of `R`. -/
theorem replica_limit {pr : Proto D L E} {run : (Bytes → Bool) → D → L → Out (D × E)} {inv : D → Prop} {valid : L → Prop} {key : L → Bytes}
    {R : L → Prop} {C : E → Prop} {left : D → Nat} {lb : L} {N : Nat} (hm : Gauge run inv valid key (key lb) R C left)
    (hv : ∀ e l, request pr e = some l → valid l) (hN : ∀ path d d' r, inv d → valid lb → run path d lb = .ok (d', r) → left d' ≤ N)
    {H A : List Entry} (hA : A <+: H) {path : Nat → Bytes → Bool} {d d' : D} {rs : List (Option E)} (hi : inv d)
    (h : answers (request pr) run path 1 d A = .ok (d', rs)) {b : Nat} (hb : At pr H b lb) (is : List Nat) (hnd : is.Nodup)
    (his : ∀ i ∈ is, b < i ∧ Without R key pr H (key lb) b i ∧ (∃ l, At pr H i l ∧ key l = key lb) ∧ ∃ r, rs[i - 1]? = some (some r) ∧ C r) :
    is.length ≤ N := by
  by_cases hne : is = []
  · rw [hne]; exact Nat.zero_le _
  -- the last hit
  obtain ⟨m, hm1, hm2⟩ : ∃ m ∈ is, ∀ i ∈ is, i ≤ m := by
    clear his hnd
    induction is with
    | nil => exact absurd rfl hne
    | cons x is ih =>
      by_cases h0 : is = []
      · exact ⟨x, List.mem_cons_self, fun i hi => by rw [h0] at hi; rw [List.mem_singleton.mp hi]⟩
      · obtain ⟨m, h1, h2⟩ := ih h0
        rcases Nat.le_total x m with hx | hx
        · exact ⟨m, List.mem_cons_of_mem _ h1, fun i hi => (List.mem_cons.mp hi).elim (fun e => e ▸ hx) (h2 i)⟩
        · exact ⟨x, List.mem_cons_self, fun i hi => (List.mem_cons.mp hi).elim (fun e => e ▸ Nat.le_refl _) fun h => Nat.le_trans (h2 i h) hx⟩
  obtain ⟨bm, wm, _, rm, hrm, _⟩ := his m hm1
  have hlen := answers_length h
  have hmA : m ≤ A.length := by
    have := (List.getElem?_eq_some_iff.mp hrm).1
    omega
  obtain ⟨b1, eb, b2, b3⟩ := hb
  have getA : ∀ j, j < A.length → A[j]? = H[j]? := by
    intro j hj
    obtain ⟨T, rfl⟩ := hA
    rw [List.getElem?_append_left hj]
  -- the entries before, the entry itself, those up to the last hit, and the others
  have hbA : b - 1 < A.length := by omega
  have hAb : A[b - 1]? = some eb := by rw [getA _ hbA]; exact b2
  have hs : A = A.take (b - 1) ++ ([eb] ++ ((A.take m).drop b ++ A.drop m)) := by
    have e1 : A.take m ++ A.drop m = A := List.take_append_drop m A
    have hlt' : b - 1 < (A.take m).length := by rw [List.length_take]; omega
    have e2 : (A.take m).take (b - 1) = A.take (b - 1) := by rw [List.take_take]; congr 1; omega
    have e3 : (A.take m)[b - 1] = eb := by
      rw [List.getElem_take]
      exact (List.getElem?_eq_some_iff.mp hAb).2
    have e4 : (A.take m).drop (b - 1) = eb :: (A.take m).drop b := by
      rw [List.drop_eq_getElem_cons hlt', e3]
      congr 2; omega
    conv_lhs => rw [← e1, ← List.take_append_drop (b - 1) (A.take m), e2, e4]
    simp
  rw [hs] at h
  obtain ⟨d1, r1, r2, h1, h2, hr2⟩ := answers_append h
  obtain ⟨d2, r3, r4, h3, h4, hr4⟩ := answers_append h2
  obtain ⟨d3, r5, r6, h5, h6, hr6⟩ := answers_append h4
  have hi1 := answers_inv hm hv hi h1
  simp only [answers, b3] at h3
  obtain ⟨⟨d2', r⟩, h30, h3⟩ := Out.bind_eq_ok.mp h3
  cases h3
  have hi2 := hm.keep _ _ _ _ _ hi1 (hv eb lb b3) h30
  have hl1 : r1.length = b - 1 := by rw [answers_length h1, List.length_take]; omega
  have hl5 : r5.length = m - b := by rw [answers_length h5, List.length_drop, List.length_take]; omega
  have hrs : ∀ i, b < i → i ≤ m → rs[i - 1]? = r5[i - 1 - b]? := by
    intro i k1 k2
    rw [hr2, hr4, hr6, List.getElem?_append_right (by omega), hl1, List.getElem?_append_right (by simp; omega), List.getElem?_append_left (by simp; omega)]
    congr 1
    simp only [List.length_singleton]
    omega
  have hK : ∀ i, b < i → i ≤ m → ((A.take m).drop b)[i - 1 - b]? = H[i - 1]? := by
    intro i k1 k2
    rw [List.getElem?_drop, List.getElem?_take, if_pos (by omega), ← getA _ (by omega)]
    congr 1
    omega
  have toHit : ∀ i ∈ is, Hit (request pr) key (key lb) C ((A.take m).drop b) r5 (i - 1 - b) := by
    intro i hi'
    obtain ⟨k1, _, ⟨l, ⟨_, e, k3, k4⟩, k5⟩, r', k6, k7⟩ := his i hi'
    have k2 := hm2 i hi'
    exact ⟨e, l, r', by rw [hK i k1 k2]; exact k3, k4, k5, by rw [← hrs i k1 k2]; exact k6, k7⟩
  refine Nat.le_trans ?_ (hN _ _ _ _ hi1 (hv eb lb b3) h30)
  have := hits_le hm hv hi2 h5 ?_ (is.map fun i => i - 1 - b) ?_ ?_
  · rw [List.length_map] at this
    exact this
  · rintro j l ⟨e, k1, k2⟩ k3 k4
    have hj : j < m - b := by
      have := (List.getElem?_eq_some_iff.mp k1).1
      rw [List.length_drop, List.length_take] at this
      omega
    have hj' : j = (b + j + 1) - 1 - b := by omega
    rw [hj', hK (b + j + 1) (by omega) (by omega)] at k1
    by_cases hlast : b + j + 1 = m
    · have := toHit m hm1
      have e1 : m - 1 - b = j := by omega
      rw [e1] at this
      exact this
    · exact absurd k4 (wm (b + j + 1) l (by omega) (by omega) ⟨by omega, e, k1, k2⟩ k3)
  · refine (List.nodup_map_iff_inj_on hnd).mpr ?_
    intro x hx y hy hxy
    have := (his x hx).1
    have := (his y hy).1
    omega
  · intro j hj
    obtain ⟨i, hi', rfl⟩ := List.mem_map.mp hj
    exact toHit i hi'

/-- Several replicas: each place is a hit at one of them. -/
theorem sum_limit {T : Nat → P → Prop} {N : Nat} : ∀ (ps : List P), (∀ p ∈ ps, ∀ is : List Nat, is.Nodup → (∀ i ∈ is, T i p) → is.length ≤ N) →
    ∀ is : List Nat, is.Nodup → (∀ i ∈ is, ∃ p ∈ ps, T i p) → is.length ≤ ps.length * N
  | [], _, is, _, h => by
    cases is with
    | nil => simp
    | cons i is =>
      obtain ⟨p, hp, _⟩ := h i List.mem_cons_self
      cases hp
  | p :: ps, hN, is, hnd, h => by
    classical
    have h1 := hN p List.mem_cons_self (is.filter fun i => T i p) (hnd.filter _) fun i hi => by simpa using (List.mem_filter.mp hi).2
    have h2 := sum_limit ps (fun q hq => hN q (List.mem_cons_of_mem _ hq)) (is.filter fun i => ¬ T i p) (hnd.filter _) fun i hi => by
      obtain ⟨k1, k2⟩ := List.mem_filter.mp hi
      obtain ⟨q, hq, hT⟩ := h i k1
      rcases List.mem_cons.mp hq with rfl | hq
      · simp [hT] at k2
      · exact ⟨q, hq, hT⟩
    have h3 : is.length = (is.filter fun i => T i p).length + (is.filter fun i => ¬ T i p).length := by
      have := List.length_eq_length_filter_add (l := is) (fun i => decide (T i p))
      simpa using this
    rw [List.length_cons, Nat.succ_mul]
    omega

/-- All replicas of `ps` have applied a beginning of one list. -/
theorem one_list {g : Setting P} (hg : Proper g) {W : World P} (h : Reachable g W) (hn : NoCollision g.v W.Hashed) (hser : SerInj g.v)
    (hv : Voters g W) (ps : List P) (hps : ∀ p ∈ ps, W.node p ≠ none) : ∃ H : List Entry, ∀ p ∈ ps, W.applied p <+: H := by
  have agree : ∀ p ∈ ps, ∀ q ∈ ps, W.applied p <+: W.applied q ∨ W.applied q <+: W.applied p := by
    intro p hp q hq
    obtain ⟨s, hs⟩ := Option.ne_none_iff_exists'.mp (hps p hp)
    obtain ⟨s', hs'⟩ := Option.ne_none_iff_exists'.mp (hps q hq)
    exact hv.elim (fun hv => C28_applied_agree hg h .now hn hser hv hs hs') fun hv => C29_applied_agree_partial hg h .now hn hser hv hs hs'
  have main : ∀ l : List P, (∀ p ∈ l, p ∈ ps) → l = [] ∨ ∃ q ∈ l, ∀ p ∈ l, W.applied p <+: W.applied q := by
    intro l
    induction l with
    | nil => exact fun _ => .inl rfl
    | cons x l ih =>
      intro hl
      refine .inr ?_
      rcases ih fun p hp => hl p (List.mem_cons_of_mem _ hp) with rfl | ⟨q, hq, hall⟩
      · exact ⟨x, List.mem_cons_self, fun p hp => by rw [List.mem_singleton.mp hp]⟩
      · rcases agree x (hl x List.mem_cons_self) q (hl q (List.mem_cons_of_mem _ hq)) with hx | hx
        · exact ⟨q, List.mem_cons_of_mem _ hq, fun p hp => (List.mem_cons.mp hp).elim (fun e => e ▸ hx) (hall p)⟩
        · exact ⟨x, List.mem_cons_self, fun p hp => (List.mem_cons.mp hp).elim (fun e => by rw [e]) fun hp => (hall p hp).trans hx⟩
  rcases main ps fun p hp => hp with rfl | ⟨q, _, hall⟩
  · exact ⟨[], fun p hp => by cases hp⟩
  · exact ⟨_, hall⟩

/-- Several replicas with databases of their own: each keeps the limit. -/
theorem limit {pr : Proto D L E} {run : (Bytes → Bool) → D → L → Out (D × E)} {inv : D → Prop} {valid : L → Prop} {key : L → Bytes}
    {R : L → Prop} {C : E → Prop} {left : D → Nat} {lb : L} {N : Nat} {d0 : D} {W : World P} (hm : Gauge run inv valid key (key lb) R C left)
    (hv : ∀ e l, request pr e = some l → valid l) (hN : ∀ path d d' r, inv d → valid lb → run path d lb = .ok (d', r) → left d' ≤ N)
    {ps : List P} {H : List Entry} (hH : ∀ p ∈ ps, W.applied p <+: H) (hi : inv d0) {path : P → Nat → Bytes → Bool} {b : Nat} (hb : At pr H b lb)
    {is : List Nat} (hnd : is.Nodup) (his : ∀ i ∈ is, b < i ∧ Without R key pr H (key lb) b i ∧ (∃ l, At pr H i l ∧ key l = key lb) ∧
      ∃ p ∈ ps, ∃ d rs r, answers (request pr) run (path p) 1 d0 (W.applied p) = .ok (d, rs) ∧ rs[i - 1]? = some (some r) ∧ C r) :
    is.length ≤ ps.length * N := by
  refine sum_limit (T := fun i p => b < i ∧ Without R key pr H (key lb) b i ∧ (∃ l, At pr H i l ∧ key l = key lb) ∧
    ∃ d rs r, answers (request pr) run (path p) 1 d0 (W.applied p) = .ok (d, rs) ∧ rs[i - 1]? = some (some r) ∧ C r) ps ?_ is hnd ?_
  · intro p hp js hjn hjs
    cases hcase : js with
    | nil => exact Nat.zero_le _
    | cons j0 js0 =>
      rw [← hcase]
      obtain ⟨_, _, _, d, rs, _, hans, _⟩ := hjs j0 (by rw [hcase]; exact List.mem_cons_self)
      refine replica_limit hm hv hN (hH p hp) hi hans hb js hjn fun i hi => ?_
      obtain ⟨i1, i2, i3, d', rs', r, i4, i5, i6⟩ := hjs i hi
      rw [hans] at i4
      cases i4
      exact ⟨i1, i2, i3, r, i5, i6⟩
  · intro i hi
    obtain ⟨i1, i2, i3, p, hp, i4⟩ := his i hi
    exact ⟨p, hp, i1, i2, i3, i4⟩

/-- A gauge from a simulation: a request that fails its check changes nothing and is not counted. -/
theorem gauge_sim {V : Type} (M : Sim D L V E) {run : (Bytes → Bool) → D → L → Out (D × E)} {R : L → Prop} {C C' : E → Prop} {left : Option V → Nat}
    (hm : Meter M.step R C left) (hC : ∀ r, C' r → C r) (a : Bytes)
    (hrun : ∀ path d l d' r, M.inv d → M.valid l → run path d l = .ok (d', r) → M.run d l = .ok (d', r) ∨ d' = d ∧ ¬ C' r) :
    Gauge run M.inv M.valid M.key a R C' fun d => left (M.look d a) := by
  refine ⟨?_, ?_, ?_⟩
  · intro path d l d' r hi hv h
    rcases hrun path d l d' r hi hv h with h | ⟨rfl, _⟩
    · obtain ⟨s, h1, h2, _⟩ := M.sim d l hi hv
      rw [h1] at h
      cases h
      exact h2
    · exact hi
  · intro path d l d' r hi hv h hR
    rcases hrun path d l d' r hi hv h with h | ⟨rfl, _⟩
    · obtain ⟨s, h1, _, h3, h4⟩ := M.sim d l hi hv
      rw [h1] at h
      cases h
      by_cases ha : M.key l = a
      · rw [← ha, h3]
        exact hm.less _ _ fun x => hR ⟨ha, x⟩
      · rw [h4 a (Ne.symm ha)]
    · exact Nat.le_refl _
  · intro path d l d' r hi hv h ha hc
    rcases hrun path d l d' r hi hv h with h | ⟨_, h⟩
    · obtain ⟨s, h1, _, h3, _⟩ := M.sim d l hi hv
      rw [h1] at h
      cases h
      rw [← ha, h3]
      exact hm.spent _ _ (hC _ hc)
    · exact absurd hc h

/-! ## SVR2 -/

section
open Svr.DB2
variable {prims : Prims} {parse : Bytes → Option Svr.DB2.Log} {g : Setting P} {W : World P}

/-- Wrong guesses that can still be answered PIN_MISMATCH. -/
def left2 (a : Bytes) (db : Svr.DB2.DB) : Nat :=
  match db.find a with
  | none => 0
  | some r => r.tries.toNat - 1

theorem u8_pred {t : UInt8} (h : t ≠ 0) : (t - 1).toNat = t.toNat - 1 := Svr.DB3.u8_sub_one h

theorem left2_insert {db : Svr.DB2.DB} {a : Bytes} {r : Svr.DB2.Row} : left2 a (db.insert a r) = r.tries.toNat - 1 := by simp [left2]
theorem left2_erase {db : Svr.DB2.DB} {a : Bytes} : left2 a (db.erase a) = 0 := by simp [left2]

theorem other2 {path : Bytes → Bool} {db db' : Svr.DB2.DB} {l : Svr.DB2.Log} {r : Svr.DB2.Resp} {a : Bytes} (h : Svr.DB2.run prims path db l = .ok (db', r))
    (ha : l.id ≠ a) : left2 a db' = left2 a db := by
  obtain ⟨f, hf⟩ := run_local prims path l
  rw [hf db] at h
  obtain ⟨⟨o, r'⟩, _, h⟩ := Out.bind_eq_ok.mp h
  cases h
  simp only [left2, OMap.find_set_ne _ _ ha]

theorem own2 {path : Bytes → Bool} {db db' : Svr.DB2.DB} {l : Svr.DB2.Log} {r : Svr.DB2.Resp} (hi : Svr.DB2.Inv prims db) (hv : Svr.DB2.validate l = none)
    (h : Svr.DB2.run prims path db l = .ok (db', r)) (hb : Spec2.isBackup l.req = false) :
    left2 l.id db' ≤ left2 l.id db ∧ ∀ x t, r = .restore .pinMismatch x t → left2 l.id db' < left2 l.id db := by
  have hv' := (Svr.DB2.validate_iff l).mp hv
  obtain ⟨id, req⟩ := l
  unfold Svr.DB2.run at h
  have hid : (id.length == BACKUP_ID_SIZE) = true := by simpa using hv'.1
  simp only [hv, beq_self_eq_true, hid, Out.check_true, Out.bind_ok] at h
  show left2 id db' ≤ left2 id db ∧ ∀ x t, r = .restore .pinMismatch x t → left2 id db' < left2 id db
  cases req with
  | backup d p n => simp [Spec2.isBackup] at hb
  | restore gs =>
    simp only [restore] at h
    cases hf : db.find id with
    | none =>
      rw [hf] at h
      cases h
      exact ⟨Nat.le_refl _, fun x t e => by cases e⟩
    | some row =>
      have hr := hi id row hf
      rw [hf] at h
      simp only at h
      by_cases hst : row.state ≠ AVAILABLE
      · rw [if_pos hst] at h
        cases h
        exact ⟨Nat.le_refl _, fun x t e => by cases e⟩
      · rw [if_neg hst, Svr.DB2.verify_ok hr.size_le] at h
        simp only [Out.bind_ok, Out.pure_eq] at h
        by_cases hve : (!(ctEq (hashFrom (prims.sip16 (rowRaw id row))) row.leaf && path id)) = true
        · rw [if_pos hve] at h
          cases h
          exact ⟨Nat.le_refl _, fun x t e => by cases e⟩
        · rw [if_neg hve] at h
          by_cases hg : ctEq gs row.pin = true
          · rw [if_pos hg] at h
            cases h
            exact ⟨Nat.le_refl _, fun x t e => by cases e⟩
          · rw [if_neg hg] at h
            by_cases ht : row.tries - 1 = 0
            · rw [if_pos ht] at h
              cases h
              rw [left2_erase]
              exact ⟨Nat.zero_le _, fun x t e => by cases e⟩
            · rw [if_neg ht, updateLeaf_ok (by exact hr.size_le)] at h
              simp only [Out.bind_ok] at h
              cases h
              have h1 := u8_pred hr.tries_pos
              have h2 : (row.tries - 1).toNat ≠ 0 := fun e => ht (Svr.DB3.u8_eq_zero_iff.mpr e)
              rw [left2_insert]
              have h3 : left2 id db = row.tries.toNat - 1 := by simp [left2, hf]
              show (row.tries - 1).toNat - 1 ≤ _ ∧ ∀ x t, _ → (row.tries - 1).toNat - 1 < _
              rw [h3]
              exact ⟨by omega, fun _ _ _ => by omega⟩
  | delete =>
    simp only [delete] at h
    cases hf : db.find id with
    | none =>
      rw [hf] at h
      cases h
      exact ⟨Nat.le_refl _, fun x t e => by cases e⟩
    | some row =>
      rw [hf] at h
      cases h
      rw [left2_erase]
      exact ⟨Nat.zero_le _, fun x t e => by cases e⟩
  | expose d =>
    simp only [expose] at h
    cases hf : db.find id with
    | none =>
      rw [hf] at h
      cases h
      exact ⟨Nat.le_refl _, fun x t e => by cases e⟩
    | some row =>
      have hr := hi id row hf
      rw [hf] at h
      simp only at h
      rw [Svr.DB2.verify_ok hr.size_le] at h
      simp only [Out.bind_ok, Out.pure_eq] at h
      by_cases hve : (!(ctEq (hashFrom (prims.sip16 (rowRaw id row))) row.leaf && path id)) = true
      · rw [if_pos hve] at h
        cases h
        exact ⟨Nat.le_refl _, fun x t e => by cases e⟩
      · rw [if_neg hve] at h
        by_cases hp : (!ctEqPrefix row.data d row.dataSize.toNat) = true
        · rw [if_pos hp] at h
          cases h
          exact ⟨Nat.le_refl _, fun x t e => by cases e⟩
        · rw [if_neg hp] at h
          by_cases hs : row.state = POPULATED ∨ row.state = AVAILABLE
          · rw [if_pos hs, updateLeaf_ok (by exact hr.size_le)] at h
            simp only [Out.bind_ok] at h
            cases h
            rw [left2_insert]
            refine ⟨?_, fun x t e => by cases e⟩
            simp [left2, hf]
          · rw [if_neg hs] at h
            cases h
            exact ⟨Nat.le_refl _, fun x t e => by cases e⟩
  | tries =>
    simp only [triesReq] at h
    cases hf : db.find id with
    | none =>
      rw [hf] at h
      cases h
      exact ⟨Nat.le_refl _, fun x t e => by cases e⟩
    | some row =>
      rw [hf] at h
      cases h
      exact ⟨Nat.le_refl _, fun x t e => by cases e⟩
  | unset => exact absurd hv'.2 (by simp)

theorem backup2 {path : Bytes → Bool} {db db' : Svr.DB2.DB} {a s pin : Bytes} {n : UInt32} {r : Svr.DB2.Resp}
    (hv : Svr.DB2.validate ⟨a, .backup s pin n⟩ = none) (h : Svr.DB2.run prims path db ⟨a, .backup s pin n⟩ = .ok (db', r)) :
    left2 a db' = n.toNat - 1 ∧ r = .backup := by
  have hv' := (Svr.DB2.validate_iff _).mp hv
  have hid : (a.length == BACKUP_ID_SIZE) = true := by simpa using hv'.1
  unfold Svr.DB2.run at h
  simp only [hv, beq_self_eq_true, hid, Out.check_true, Out.bind_ok, backup] at h
  obtain ⟨d, _, h⟩ := Out.bind_eq_ok.mp h
  obtain ⟨p, _, h⟩ := Out.bind_eq_ok.mp h
  obtain ⟨row, hrow, h⟩ := Out.bind_eq_ok.mp h
  cases h
  unfold updateLeaf at hrow
  obtain ⟨hh, _, hrow⟩ := Out.bind_eq_ok.mp hrow
  cases hrow
  rw [left2_insert]
  obtain ⟨_, _, _, _, _, h4⟩ := hv'
  exact ⟨by show n.toUInt8.toNat - 1 = _; rw [u32_toUInt8_toNat h4], rfl⟩

theorem gauge2 (a : Bytes) : Gauge (Svr.DB2.run prims) (Svr.DB2.Inv prims) (fun l => Svr.DB2.validate l = none) (·.id) a
    (fun l => Spec2.isBackup l.req = true) (fun r => ∃ x t, r = .restore .pinMismatch x t) (left2 a) := by
  refine ⟨?_, ?_, ?_⟩
  · intro path d l d' r hi hv h
    obtain ⟨d2, r2, h1, h2⟩ := Svr.DB2.run_inv path l hi hv
    rw [h1] at h
    cases h
    exact h2
  · intro path d l d' r hi hv h hR
    by_cases ha : l.id = a
    · rw [← ha]
      exact (own2 hi hv h (by simpa [ha] using hR)).1
    · exact Nat.le_of_eq (other2 h ha)
  · rintro path d l d' r hi hv h rfl ⟨x, t, hr⟩
    cases hb : Spec2.isBackup l.req with
    | false => exact (own2 hi hv h hb).2 x t hr
    | true =>
      obtain ⟨id, req⟩ := l
      cases req <;> simp [Spec2.isBackup] at hb
      rw [(backup2 hv h).2] at hr
      cases hr

/-- The entries a replica has applied, answered with failures of the integrity check as in `path`. -/
def answers2 (prims : Prims) (parse : Bytes → Option Svr.DB2.Log) (path : Nat → Bytes → Bool) (A : List Entry) : Out (Svr.DB2.DB × List (Option Svr.DB2.Resp)) :=
  answers (request (svr2 prims parse)) (Svr.DB2.run prims) path 1 Svr.DB2.empty A

/-- **C83** for SVR2, as far as it is true: however integrity checks fail, after a backup with `max_tries = n` and until the account's next one,
each replica answers at most `n - 1` entries with PIN_MISMATCH, and several replicas that many each. -/
theorem C83_svr2_partial (hg : Proper g) (h : Reachable g W) (hn : NoCollision g.v W.Hashed) (hser : SerInj g.v) (hv : Voters g W) (ps : List P)
    (hps : ∀ p ∈ ps, W.node p ≠ none) : ∃ H : List Entry, (∀ p ∈ ps, W.applied p <+: H) ∧ ∀ (path : P → Nat → Bytes → Bool) (b : Nat) (a s pin : Bytes)
      (n : UInt32), At (svr2 prims parse) H b ⟨a, .backup s pin n⟩ → ∀ is : List Nat, is.Nodup →
      (∀ i ∈ is, b < i ∧ NoBackup (svr2 prims parse) H a b i ∧ (∃ q, At (svr2 prims parse) H i ⟨a, q⟩) ∧
        ∃ p ∈ ps, ∃ d rs x t, answers2 prims parse (path p) (W.applied p) = .ok (d, rs) ∧ rs[i - 1]? = some (some (.restore .pinMismatch x t))) →
      is.length ≤ ps.length * (n.toNat - 1) := by
  obtain ⟨H, hH⟩ := one_list hg h hn hser hv ps hps
  refine ⟨H, hH, fun path b a s pin n hb is hnd his => ?_⟩
  refine limit (pr := svr2 prims parse) (lb := ⟨a, .backup s pin n⟩) (gauge2 (prims := prims) a) (fun e l he => Grid.request_valid he) ?_ hH
    (inv_empty prims) (path := path) hb hnd fun i hi => ?_
  · intro path' d1 d2 r hi hv' hrun
    exact Nat.le_of_eq (backup2 hv' hrun).1
  · obtain ⟨i1, i2, ⟨q, i3⟩, p, hp, d, rs, x, t, i4, i5⟩ := his i hi
    refine ⟨i1, fun j l j1 j2 j3 j4 => ?_, ⟨_, i3, rfl⟩, p, hp, d, rs, _, i4, i5, x, t, rfl⟩
    have := i2 j l j1 j2 j3 j4
    simp [this]

end

/-! ## SVR3 -/

section
open Svr.DB3 in
theorem run3 {P3 : Svr.DB3.Prims3} (path : Bytes → Bool) (d : Svr.DB3.DB) (l : Svr.DB3.Log) (d' : Svr.DB3.DB) (r : Svr.DB3.Resp) (hi : Svr.DB3.Inv P3 d)
    (hv : Svr.DB3.validate l = none) (h : Svr.DB3.run P3 path d l = .ok (d', r)) :
    Svr.DB3.run P3 Svr.DB3.intact d l = .ok (d', r) ∨ d' = d ∧ ¬ ∃ e t, r = .evaluate .ok e t := by
  have hv' := (Svr.DB3.validate_iff l).mp hv
  obtain ⟨id, req, pk⟩ := l
  cases req with
  | create n b => exact .inl h
  | remove => exact .inl h
  | query => exact .inl h
  | unset => exact .inl h
  | evaluate b =>
    obtain ⟨hid, hb⟩ := hv'
    unfold Svr.DB3.run at h ⊢
    simp only at hid
    simp only [hv, beq_self_eq_true, Out.check_true, Out.bind_ok, strToArr_self hid, evaluate, strToArr_self hb] at h ⊢
    cases hf : d.find id with
    | none =>
      simp only [hf] at h ⊢
      exact .inl h
    | some row =>
      have hr := hi id row hf
      simp only [hf, Svr.DB3.verify_ok hr] at h ⊢
      cases hp : path id with
      | true =>
        simp only [hp] at h
        exact .inl h
      | false =>
        simp only [hp, Bool.not_false, if_true] at h
        cases h
        exact .inr ⟨rfl, by rintro ⟨e, t, h⟩; cases h⟩

variable {P3 : Svr.DB3.Prims3} {parse : Bytes → Option Svr.DB3.Log} {g : Setting P} {W : World P}

/-- The entries a replica of SVR3 has applied, answered with failures of the integrity check as in `path`. -/
def answers3 (P3 : Svr.DB3.Prims3) (parse : Bytes → Option Svr.DB3.Log) (path : Nat → Bytes → Bool) (A : List Entry) :
    Out (Svr.DB3.DB × List (Option Svr.DB3.Resp)) := answers (request (svr3 P3 parse)) (Svr.DB3.run P3) path 1 Svr.DB3.empty A

/-- **C83** for SVR3, as far as it is true: however integrity checks fail, after a Create that succeeds with `max_tries = n` and until the account's
next Create that succeeds, each replica answers at most `n` entries with an evaluation. -/
theorem C83_svr3_partial (hg : Proper g) (h : Reachable g W) (hn : NoCollision g.v W.Hashed) (hser : SerInj g.v) (hv : Voters g W) (ps : List P)
    (hps : ∀ p ∈ ps, W.node p ≠ none) : ∃ H : List Entry, (∀ p ∈ ps, W.applied p <+: H) ∧ ∀ (path : P → Nat → Bytes → Bool) (b : Nat) (a k elt : Bytes)
      (n : UInt32), At (svr3 P3 parse) H b ⟨a, .create n elt, k⟩ → (P3.mul k elt).isSome = true → ∀ is : List Nat, is.Nodup →
      (∀ i ∈ is, b < i ∧ Without (NewKey P3) (·.id) (svr3 P3 parse) H a b i ∧ (∃ q k', At (svr3 P3 parse) H i ⟨a, q, k'⟩) ∧
        ∃ p ∈ ps, ∃ d rs e t, answers3 P3 parse (path p) (W.applied p) = .ok (d, rs) ∧ rs[i - 1]? = some (some (.evaluate .ok e t))) →
      is.length ≤ ps.length * n.toNat := by
  obtain ⟨H, hH⟩ := one_list hg h hn hser hv ps hps
  refine ⟨H, hH, fun path b a k elt n hb hk is hnd his => ?_⟩
  have hvalid : ∀ e l, request (svr3 P3 parse) e = some l → Svr.DB3.validate l = none := fun e l he => by simpa [svr3] using request_valid he
  have hn1 : 1 ≤ n.toNat := by
    obtain ⟨_, e, _, he⟩ := hb
    exact ((Svr.DB3.validate_iff _).mp (hvalid _ _ he)).2.1
  refine limit (pr := svr3 P3 parse) (lb := ⟨a, .create n elt, k⟩) (gauge_sim (Svr.DB3.sim P3) (meter3 P3.mul) (fun _ x => x) a run3) hvalid ?_ hH
    (Svr.DB3.inv_empty P3) (path := path) hb hnd fun i hi => ?_
  · intro path' d1 d2 r hi hv' hrun
    obtain ⟨s, h1, _, h3, _⟩ := (Svr.DB3.sim P3).sim d1 ⟨a, .create n elt, k⟩ hi hv'
    -- a Create is never refused for its check
    have h1 : Svr.DB3.run P3 path' d1 ⟨a, .create n elt, k⟩ = _ := h1
    rw [h1] at hrun
    cases hrun
    have h3 : Svr.DB3.look d2 a = _ := h3
    show left3 (Svr.DB3.look d2 a) ≤ _
    rw [h3]
    obtain ⟨e, he⟩ := Option.isSome_iff_exists.mp hk
    simp only [Svr.DB3.sim, Spec3.astep, he, left3]
    omega
  · obtain ⟨i1, i2, ⟨q, k', i3⟩, p, hp, d, rs, e, t, i4, i5⟩ := his i hi
    exact ⟨i1, i2, ⟨_, i3, rfl⟩, p, hp, d, rs, _, i4, i5, e, t, rfl⟩

end

/-! ## SVR4 -/

section
variable {P4 : Svr.DB4.Prims4} {parse : Bytes → Option Svr.DB4.Log} {g : Setting P} {W : World P}

/-- A Restore1 that was evaluated, answered OK or ERROR. -/
def Tried (x : Svr.DB4.Effect) : Prop := ∃ st es t, x.resp = .restore1 st es t ∧ (st = .ok ∨ st = .error)

theorem run4 (hs : Svr.DB4.SaddOK P4) (path : Bytes → Bool) (d : Svr.DB4.DB) (l : Svr.DB4.Log) (d' : Svr.DB4.DB) (x : Svr.DB4.Effect)
    (hi : Svr.DB4.Inv P4 d) (hv : Svr.DB4.validate P4 l = none) (h : Svr.DB4.run P4 path d l = .ok (d', x)) :
    Svr.DB4.Inv P4 d' ∧ (∀ k, k ≠ l.id → Svr.DB4.look d' k = Svr.DB4.look d k) ∧
      (x = (Spec4.astep P4 (Svr.DB4.look d l.id) l).2 ∧ Svr.DB4.look d' l.id = (Spec4.astep P4 (Svr.DB4.look d l.id) l).1 ∨
        path l.id = false ∧ d' = d ∧ ¬ Tried x) := by
  obtain ⟨d2, x2, h1, h2, h3, h4⟩ := Svr.DB4.run_cases P4 hs path d l hi hv
  rw [h1] at h
  cases h
  refine ⟨h2, fun k hk => ?_, ?_⟩
  · have := h3 k hk
    simp only [Svr.DB4.look, this.1, this.2]
  · rcases h4 with h4 | ⟨h4, h5, h6, _⟩
    · exact .inl h4
    · refine .inr ⟨h4, h5, ?_⟩
      rintro ⟨st, es, t, e, h⟩
      rw [e] at h6
      rcases h with rfl | rfl <;> simp [Svr.DB4.merkleFail] at h6

theorem gauge4 (hs : Svr.DB4.SaddOK P4) (a : Bytes) : Gauge (Svr.DB4.run P4) (Svr.DB4.Inv P4) (fun l => Svr.DB4.validate P4 l = none) (·.id) a
    SetsTries Tried fun d => left4 (Svr.DB4.look d a) := by
  refine ⟨fun path d l d' r hi hv h => (run4 hs path d l d' r hi hv h).1, ?_, ?_⟩
  · intro path d l d' r hi hv h hR
    obtain ⟨_, h1, h2⟩ := run4 hs path d l d' r hi hv h
    by_cases ha : l.id = a
    · rcases h2 with ⟨_, h2⟩ | ⟨_, rfl, _⟩
      · rw [← ha, h2]
        exact (meter4 P4).less _ _ fun x => hR ⟨ha, x⟩
      · exact Nat.le_refl _
    · rw [h1 a (Ne.symm ha)]
  · intro path d l d' r hi hv h ha hc
    obtain ⟨_, h1, h2⟩ := run4 hs path d l d' r hi hv h
    rcases h2 with ⟨rfl, h2⟩ | ⟨_, _, h2⟩
    · rw [← ha, h2]
      refine (meter4 P4).spent _ _ ?_
      obtain ⟨st, es, t, h3, h4⟩ := hc
      exact ⟨st, es, t, h3, by rcases h4 with rfl | rfl <;> simp⟩
    · exact absurd hc h2

/-- The entries a replica of SVR4 has applied, answered with failures of the integrity check as in `path`. -/
def answers4 (P4 : Svr.DB4.Prims4) (parse : Bytes → Option Svr.DB4.Log) (path : Nat → Bytes → Bool) (A : List Entry) :
    Out (Svr.DB4.DB × List (Option Svr.DB4.Effect)) := answers (request (svr4 P4 parse)) (Svr.DB4.run P4) path 1 Svr.DB4.empty A

/-- **C83** for SVR4, as far as it is true: however integrity checks fail, after a Create that sets `n` tries and until the account's next Create
that sets tries, each replica evaluates at most `n` Restore1 entries. -/
theorem C83_svr4_partial (hs : Svr.DB4.SaddOK P4) (hg : Proper g) (h : Reachable g W) (hn : NoCollision g.v W.Hashed) (hser : SerInj g.v)
    (hv : Voters g W) (ps : List P) (hps : ∀ p ∈ ps, W.node p ≠ none) : ∃ H : List Entry, (∀ p ∈ ps, W.applied p <+: H) ∧
      ∀ (path : P → Nat → Bytes → Bool) (b : Nat) (l : Svr.DB4.Log) (n : UInt32) (o au e z : Bytes) (v : UInt32), At (svr4 P4 parse) H b l →
      l.req = .create n o au e z v → n ≠ 0 → ∀ is : List Nat, is.Nodup →
      (∀ i ∈ is, b < i ∧ Without SetsTries (·.id) (svr4 P4 parse) H l.id b i ∧ (∃ l', At (svr4 P4 parse) H i l' ∧ l'.id = l.id) ∧
        ∃ p ∈ ps, ∃ d rs x, answers4 P4 parse (path p) (W.applied p) = .ok (d, rs) ∧ rs[i - 1]? = some (some x) ∧ Tried x) →
      is.length ≤ ps.length * n.toNat := by
  obtain ⟨H, hH⟩ := one_list hg h hn hser hv ps hps
  refine ⟨H, hH, fun path b l n o au e z v hb hl hn0 is hnd his => ?_⟩
  have hvalid : ∀ e l, request (svr4 P4 parse) e = some l → Svr.DB4.validate P4 l = none := fun e l he => by simpa [svr4] using request_valid he
  have hn1 : 1 ≤ n.toNat := by
    rcases Nat.eq_zero_or_pos n.toNat with h0 | h0
    · exact absurd (UInt32.toNat_inj.mp (by simpa using h0)) hn0
    · exact h0
  refine limit (pr := svr4 P4 parse) (lb := l) (gauge4 hs l.id) hvalid ?_ hH (Svr.DB4.inv_empty P4) (path := path) hb hnd his
  intro path' d1 d2 r hi hv' hrun
  -- a Create is never refused for its check
  have key : Svr.DB4.run P4 Svr.DB4.intact d1 l = .ok (d2, r) := by
    rw [← hrun]
    obtain ⟨id, req⟩ := l
    cases hl
    rfl
  obtain ⟨_, _, h2⟩ := run4 hs _ _ _ _ _ hi hv' key
  rcases h2 with ⟨_, h2⟩ | ⟨h2, _⟩
  · show left4 (Svr.DB4.look d2 l.id) ≤ _
    rw [h2]
    cases Svr.DB4.look d1 l.id <;> simp [Spec4.astep, hl, hn0, left4] <;> omega
  · simp [Svr.DB4.intact] at h2

end

/-! ## The whole claim is false -/

section
open Raft.Node Raft.Play Core.Play

def guesses : Bytes → Option Svr.DB2.Log
  | [1] => some ⟨DB2.ida, .backup DB2.sec DB2.pinA 2⟩
  | [2] => some ⟨DB2.ida, .expose DB2.sec⟩
  | [3] => some ⟨DB2.ida, .restore DB2.pinX⟩
  | _ => none

/-- As `siteActs`, with two wrong guesses. -/
def guessActs : List Act :=
  [.start 1, .start 2, .start 3, .call 1 .tick, flush 1, .give 2 0, flush 2, .give 1 1, .call 1 (.request (.data [1])),
   .call 1 (.request (.data [2])), .call 1 (.request (.data [3])), .call 1 (.request (.data [3])), flush 1, .give 2 2, .give 2 4, .give 2 6,
   .give 2 8, .give 2 10, flush 2, .give 1 16, flush 1, .give 2 17, flush 2, .give 1 19, flush 1, .give 2 20] ++
  List.replicate 5 (.call 1 .takeCommitted) ++ List.replicate 5 (.call 2 .takeCommitted)

def guessSite : Site Nat Svr.DB2.DB Svr.DB2.Log Svr.DB2.Resp := ⟨trio, svr2 DB2.P0 guesses, fun _ => none, fun p => [UInt8.ofNat p]⟩

/-- The check fails at replica 1 for the first guess and at replica 2 for the second. -/
def twist (p i : Nat) (_ : Bytes) : Bool := !(p = 1 && i = 4 || p = 2 && i = 5)

def appliedOf {D E : Type} (X : GTab D E) (p : Nat) : List Entry := X.grid.W.applied p

/-- What replica `p` answers to entry `i`. -/
def said (A : List Entry) (p i : Nat) : Option (Option Svr.DB2.Resp) :=
  match answers2 DB2.P0 guesses (twist p) A with
  | .ok (_, rs) => rs[i - 1]?
  | _ => none

theorem said_spec {A : List Entry} {p i : Nat} {r : Option Svr.DB2.Resp} (h : said A p i = some r) :
    ∃ d rs, answers2 DB2.P0 guesses (twist p) A = .ok (d, rs) ∧ rs[i - 1]? = some r := by
  unfold said at h
  split at h
  · exact ⟨_, _, by assumption, h⟩
  · cases h

theorem at_of {A : List Entry} {i : Nat} {l : Svr.DB2.Log} (h1 : 1 ≤ i) (h : (A[i - 1]?).bind (request (svr2 DB2.P0 guesses)) = some l) :
    At (svr2 DB2.P0 guesses) A i l := by
  obtain ⟨e, h2, h3⟩ := Option.bind_eq_some_iff.mp h
  exact ⟨h1, e, h2, h3⟩

theorem at_only {A : List Entry} {i : Nat} {l l' : Svr.DB2.Log} (h : (A[i - 1]?).bind (request (svr2 DB2.P0 guesses)) = some l)
    (k : At (svr2 DB2.P0 guesses) A i l') : l' = l := by
  obtain ⟨_, e, h2, h3⟩ := k
  rw [h2, Option.bind_some, h3] at h
  exact Option.some.inj h

set_option maxRecDepth 100000 in
/-- The limit of C36 is false of replicas whose checks fail: after a backup with two tries, replicas 1 and 2, which applied the same entries, answer
two different guesses with PIN_MISMATCH, though `n - 1 = 1`. -/
theorem C83_false_one_limit : ∃ W : World Nat, Proper trio ∧ Reachable trio W ∧ NoCollision trio.v W.Hashed ∧ SerInj trio.v ∧ Voters trio W ∧
    (∀ p ∈ [1, 2], W.node p ≠ none) ∧ W.applied 1 = W.applied 2 ∧ ∃ (path : Nat → Nat → Bytes → Bool) (b : Nat) (a s pin : Bytes) (n : UInt32)
      (is : List Nat), At (svr2 DB2.P0 guesses) (W.applied 1) b ⟨a, .backup s pin n⟩ ∧ is.Nodup ∧
      (∀ i ∈ is, b < i ∧ NoBackup (svr2 DB2.P0 guesses) (W.applied 1) a b i ∧ (∃ q, At (svr2 DB2.P0 guesses) (W.applied 1) i ⟨a, q⟩) ∧
        ∃ p ∈ [1, 2], ∃ d rs x t, answers2 DB2.P0 guesses (path p) (W.applied p) = .ok (d, rs) ∧ rs[i - 1]? = some (some (.restore .pinMismatch x t))) ∧
      n.toNat - 1 < is.length := by
  obtain ⟨X, h1, h2, h3⟩ := goutcome_spec (c := guessSite) (as := guessActs) (f := fun X => decide (lastOf X 1 = some 5) &&
    decide (lastOf X 2 = some 5) && requests X.T (fun _ => false) && decide (appliedOf X 1 = appliedOf X 2) &&
    decide (((appliedOf X 1)[1]?).bind (request (svr2 DB2.P0 guesses)) = some ⟨DB2.ida, .backup DB2.sec DB2.pinA 2⟩) &&
    decide (((appliedOf X 1)[2]?).bind (request (svr2 DB2.P0 guesses)) = some ⟨DB2.ida, .expose DB2.sec⟩) &&
    decide (((appliedOf X 1)[3]?).bind (request (svr2 DB2.P0 guesses)) = some ⟨DB2.ida, .restore DB2.pinX⟩) &&
    decide (((appliedOf X 1)[4]?).bind (request (svr2 DB2.P0 guesses)) = some ⟨DB2.ida, .restore DB2.pinX⟩) &&
    decide (said (appliedOf X 1) 1 5 = some (some (.restore .pinMismatch [] 1))) &&
    decide (said (appliedOf X 2) 2 4 = some (some (.restore .pinMismatch [] 1)))) rfl (by decide +kernel)
  simp only [Bool.and_eq_true, decide_eq_true_eq] at h3
  obtain ⟨⟨⟨⟨⟨⟨⟨⟨⟨k1, k2⟩, k3⟩, k4⟩, k5⟩, k6⟩, k7⟩, k8⟩, k9⟩, k10⟩ := h3
  have nb : ∀ i, i ≤ 5 → NoBackup (svr2 DB2.P0 guesses) (appliedOf X 1) DB2.ida 2 i := by
    intro i hi j l j1 j2 j3 _
    obtain rfl | rfl : j = 3 ∨ j = 4 := by omega
    · rw [at_only k6 j3]; rfl
    · rw [at_only k7 j3]; rfl
  have hok := h1.ok
  refine ⟨X.grid.W, ⟨⟨by simp [trio, SSorted], by simp [trio, SSorted]⟩, by simp [trio], by simp [trio], by simp [trio]⟩, h1.raft, h2, serInj_steady,
    .inl fun m hm => absurd (requests_spec (g := trio) rfl k3 hm) (by decide), ?_, k4, twist, 2, DB2.ida, DB2.sec, DB2.pinA, 2, [4, 5],
    at_of (by decide) k5, by decide, ?_, by decide⟩
  · intro p hp
    have : ∃ a, X.grid.side p = some a := by
      rcases List.mem_cons.mp hp with rfl | hp
      · exact (lastOf_spec k1).imp fun _ h => h.1
      · obtain rfl := List.mem_singleton.mp hp
        exact (lastOf_spec k2).imp fun _ h => h.1
    obtain ⟨a, ha⟩ := this
    obtain ⟨s, hs, _⟩ := hok.has p a ha
    rw [hs]; simp
  · intro i hi
    rcases List.mem_cons.mp hi with rfl | hi
    · obtain ⟨d, rs, e1, e2⟩ := said_spec k10
      exact ⟨by decide, nb 4 (by decide), ⟨_, at_of (by decide) k7⟩, 2, by decide, d, rs, _, _, e1, e2⟩
    · obtain rfl := List.mem_singleton.mp hi
      obtain ⟨d, rs, e1, e2⟩ := said_spec k9
      exact ⟨by decide, nb 5 (by decide), ⟨_, at_of (by decide) k8⟩, 1, by decide, d, rs, _, _, e1, e2⟩

end

end Svr.Props.Tamper
