import Verif.Core.Grid

/-!
# What a completion handler that was told of success knows about the group
-/

namespace Svr.Core
open Raft Raft.Node
variable {P : Type} [LinearOrder P] {D L E : Type} {c : Site P D L E}

/-- The future as long as nobody registers the handler `w` at `p` (again). -/
inductive Since (c : Site P D L E) (p : P) (w : Nat) (G : Grid P D E) : Grid P D E → Prop
  | now : Since c p w G G
  | next {G1 G2 : Grid P D E} (h : Since c p w G G1) (k : GNext c G1 G2)
    (hn : ∀ a b, G1.side p = some a → G2.side p = some b → ∀ x ∈ b.txs, x.2.who = w → x ∈ a.txs) : Since c p w G G2

theorem Since.future {p : P} {w : Nat} {G G' : Grid P D E} (h : Since c p w G G') : GFuture c G G' := by
  induction h with
  | now => exact .now
  | next _ k _ ih => exact .next ih k

/-- What holds of a handler registered for the entry at `idx` with term `t` and hash `hs`. -/
structure Waits (G : Grid P D E) (p : P) (w idx t : Nat) (hs : Bytes) : Prop where
  has : ∃ a, G.side p = some a ∧ (∀ x ∈ a.txs, x.2.who = w → x.1 = idx ∧ x.2.term = t ∧ x.2.hash = hs) ∧
    ∀ e eff, (w, .success e eff) ∈ a.done → 1 ≤ idx ∧ (G.W.applied p)[idx - 1]? = some e ∧ (e.term = t ∧ (0 < hs.length → e.hash = hs)) ∧
      (p, idx, eff) ∈ G.out

theorem mem_insertTx {idx : Nat} {t : LogTx} {x : Nat × LogTx} : ∀ {l : List (Nat × LogTx)}, x ∈ insertTx idx t l → x = (idx, t) ∨ x ∈ l
  | [], h => by simp only [insertTx, List.mem_singleton] at h; exact .inl h
  | y :: l, h => by
    unfold insertTx at h
    split at h
    · rcases List.mem_cons.mp h with h | h
      · exact .inr (h ▸ List.mem_cons_self)
      · exact (mem_insertTx h).imp_right (List.mem_cons_of_mem _)
    · rcases List.mem_cons.mp h with h | h
      · exact .inl h
      · exact .inr h

/-- One turn of the loop, for those who are told of success. -/
theorem take_told {pr : Proto D L E} {pm : Bytes → Option Minimums.Limits} {me : Bytes} {a a' : Side D E} {path : Bool} {i : Nat} {e : Entry}
    (h : a.take pr pm me path i e = .ok a') :
    (∀ x ∈ a'.txs, x ∈ a.txs) ∧ ∀ w d eff, (w, .success d eff) ∈ a'.done → (w, .success d eff) ∈ a.done ∨
      (d = e ∧ a'.effects = a.effects ++ [(i, eff)] ∧ ∃ x ∈ a.txs, x.1 = i ∧ x.2.who = w ∧ x.2.term = e.term ∧ (0 < x.2.hash.length → e.hash = x.2.hash)) := by
  obtain ⟨s1, f, h1, rfl⟩ := take_eq h
  obtain ⟨_, _, h3, h4⟩ := inner_cases h1
  simp only at h3 h4
  have htx : ∀ x ∈ s1.txs, x ∈ a.txs := by
    rcases h4 with ⟨h4, _⟩ | ⟨_, _, _, h4, _⟩
    · rw [h4]; exact fun x hx => hx
    · rw [h4]; intro x hx; cases hx
  have hdone : ∀ w d eff, (w, .success d eff) ∈ s1.done → (w, .success d eff) ∈ a.done := by
    rcases h4 with ⟨_, h4, _⟩ | ⟨_, _, _, _, h4⟩
    · rw [h4]; exact fun _ _ _ hx => hx
    · rw [h4]
      intro w d eff hx
      rcases List.mem_append.mp hx with hx | hx
      · exact hx
      · obtain ⟨y, _, hy⟩ := List.mem_map.mp hx
        cases hy
  refine ⟨fun x hx => htx x (List.mem_filter.mp hx).1, fun w d eff hx => ?_⟩
  rcases List.mem_append.mp hx with hx | hx
  · exact .inl (hdone w d eff hx)
  · right
    obtain ⟨y, hy, hxy⟩ := List.mem_map.mp hx
    obtain ⟨y1, y2⟩ := List.mem_filter.mp hy
    simp only [Prod.mk.injEq] at hxy
    obtain ⟨k1, k2⟩ := hxy
    unfold verdict at k2
    split at k2
    · cases k2
    rename_i ht
    split at k2
    · cases k2
    rename_i hh
    cases k2
    refine ⟨rfl, by show s1.effects ++ _ = _; rw [h3], y, htx y y1, by simpa using y2, k1, by simpa using ht, fun hl => ?_⟩
    by_contra hne
    exact hh ⟨hl, fun hc => hne ((ctEq_iff _ _).mp hc).symm⟩

theorem Waits.next {p : P} {w idx t : Nat} {hs : Bytes} {G G' : Grid P D E} (h : Waits G p w idx t hs) (ok : GridOk c G) (k : GNext c G G')
    (hn : ∀ a b, G.side p = some a → G'.side p = some b → ∀ x ∈ b.txs, x.2.who = w → x ∈ a.txs) : Waits G' p w idx t hs := by
  obtain ⟨a, h1, h2, h3⟩ := h.has
  obtain ⟨s, n1, n2⟩ := ok.has p a h1
  cases k with
  | start q s' rand path max cfg hp k =>
    have hq : p ≠ q := by rintro rfl; rw [hp] at n1; cases n1
    refine ⟨a, by simp [setSide, hq, h1], h2, fun e eff he => ?_⟩
    rw [World.put_applied_other _ _ _ _ _ hq]
    exact h3 e eff he
  | join q r s' sq b rand path log cfg hp hq' hs ha hl hb hf k =>
    have hq : p ≠ q := by rintro rfl; rw [hp] at n1; cases n1
    refine ⟨a, by simp [setSide, hq, h1], h2, fun e eff he => ?_⟩
    rw [World.put_applied_other _ _ _ _ _ hq]
    exact h3 e eff he
  | call q s1 s' op o rand path hp hd hf k hne =>
    refine ⟨a, h1, h2, fun e eff he => ?_⟩
    obtain ⟨a1, a2, a3⟩ := h3 e eff he
    refine ⟨a1, ?_, a3⟩
    by_cases hq : p = q
    · subst hq
      rw [World.put_applied_self, List.getElem?_append_left (List.getElem?_eq_some_iff.mp a2).1]
      exact a2
    · rw [World.put_applied_other _ _ _ _ _ hq]; exact a2
  | add q b i u hb =>
    by_cases hq : p = q
    · subst hq
      rw [h1] at hb
      cases hb
      exact ⟨a.add i u, by simp [setSide], fun x hx hw => h2 x (hn a (a.add i u) h1 (by simp [setSide]) x hx hw) hw, h3⟩
    · exact ⟨a, by simp [setSide, hq, h1], h2, h3⟩
  | commit q s1 s' b b' i e path hp hb hf k ht =>
    by_cases hq : p = q
    · subst hq
      rw [h1] at hb
      cases hb
      rw [hp] at n1
      cases n1
      obtain ⟨e1, _, _, _⟩ := takeCommitted_eq k
      obtain ⟨t1, t2⟩ := take_told ht
      refine ⟨b', by simp [setSide], fun x hx hw => h2 x (t1 x hx) hw, fun d eff hd => ?_⟩
      simp only [World.put_applied_self]
      rcases t2 w d eff hd with hd | ⟨rfl, hef, x, hx, rfl, hw, hterm, hhash⟩
      · obtain ⟨a1, a2, a3, a4⟩ := h3 d eff hd
        exact ⟨a1, by rw [List.getElem?_append_left (List.getElem?_eq_some_iff.mp a2).1]; exact a2, a3, List.mem_append_left _ a4⟩
      · obtain ⟨i1, i2, i3⟩ := h2 x hx hw
        rw [n2.node] at e1
        refine ⟨by omega, ?_, ⟨by rw [← hterm, i2], by rw [← i3]; exact hhash⟩, ?_⟩
        · rw [← i1, e1]; simp
        · rw [hef]
          simp [i1]
    · refine ⟨a, by simp [setSide, hq, h1], h2, fun d eff hd => ?_⟩
      obtain ⟨a1, a2, a3, a4⟩ := h3 d eff hd
      simp only
      rw [World.put_applied_other _ _ _ _ _ hq]
      exact ⟨a1, a2, a3, List.mem_append_left _ a4⟩

theorem Waits.since {p : P} {w idx t : Nat} {hs : Bytes} {G G' : Grid P D E} (hr : GReachable c G) (h : Waits G p w idx t hs) (k : Since c p w G G') :
    Waits G' p w idx t hs := by
  induction k with
  | now => exact h
  | next k0 k hn ih => exact ih.next (hr.future k0.future).ok k hn

end Svr.Core
