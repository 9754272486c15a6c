import Verif.Sim

/-!
# Leaving the entries of one account out of a history

If every entry reads and writes only the data of the account it names, then a history without the entries of `a` leaves the data of all other
accounts as the whole history does, and gets the same answers.
-/

namespace Svr

/-- The entries that do not name account `a`. -/
def without {L : Type} (key : L → Bytes) (a : Bytes) (ls : List L) : List L := ls.filter fun l => key l ≠ a

/-- The answers to the entries that do not name account `a`. -/
def answersWithout {L A : Type} (key : L → Bytes) (a : Bytes) : List L → List A → List A
  | l :: ls, r :: rs => if key l = a then answersWithout key a ls rs else r :: answersWithout key a ls rs
  | _, _ => []

section
variable {S L O A : Type} {run : S → L → Out (S × A)} {key : L → Bytes} {get : S → Bytes → O} {put : S → Bytes → O → S}

theorem run_without (hgs : ∀ s k o, get (put s k o) k = o) (hgn : ∀ s k k' o, k ≠ k' → get (put s k o) k' = get s k')
    (hlocal : ∀ l, ∃ f : O → Out (O × A), ∀ s, run s l = (do let (o, r) ← f (get s (key l)); pure (put s (key l) o, r))) (a : Bytes) :
    ∀ (ls : List L) {s t s' : S} {rs : List A}, (∀ k, k ≠ a → get t k = get s k) → runList run s ls = .ok (s', rs) →
      ∃ t', runList run t (without key a ls) = .ok (t', answersWithout key a ls rs) ∧ (∀ k, k ≠ a → get t' k = get s' k) ∧ get t' a = get t a
  | [], s, t, s', rs, hst, h => by
    cases h
    exact ⟨t, rfl, hst, rfl⟩
  | l :: ls, s, t, s', rs, hst, h => by
    simp only [runList] at h
    obtain ⟨⟨s1, r⟩, h1, h⟩ := Out.bind_eq_ok.mp h
    obtain ⟨⟨s2, rs2⟩, h2, h⟩ := Out.bind_eq_ok.mp h
    cases h
    obtain ⟨f, hf⟩ := hlocal l
    have h1' := h1
    rw [hf s] at h1
    obtain ⟨⟨o, r1⟩, hx, h1⟩ := Out.bind_eq_ok.mp h1
    cases h1
    by_cases hk : key l = a
    · obtain ⟨t', k1, k2, k3⟩ := run_without hgs hgn hlocal a ls (t := t) (fun k hka => by rw [hst k hka, hgn _ _ _ _ (fun e => hka (e.symm.trans hk))]) h2
      exact ⟨t', by simp [without, answersWithout, hk]; simpa [without] using k1, k2, k3⟩
    · obtain ⟨t', k1, k2, k3⟩ := run_without hgs hgn hlocal a ls (t := put t (key l) o) (fun k hka => by
        by_cases hkl : key l = k
        · rw [← hkl, hgs, hgs]
        · rw [hgn _ _ _ _ hkl, hgn _ _ _ _ hkl, hst k hka]) h2
      refine ⟨t', ?_, k2, by rw [k3, hgn _ _ _ _ hk]⟩
      have : runList run t (l :: without key a ls) = .ok (t', r :: answersWithout key a ls rs2) := by
        simp only [runList, hf t, hst _ hk, hx, Out.bind_ok, Out.pure_eq, k1]
      simpa [without, answersWithout, hk] using this

/-- If the account is in the end as it was at the beginning, its entries may as well have been left out. -/
theorem run_without_same (hgs : ∀ s k o, get (put s k o) k = o) (hgn : ∀ s k k' o, k ≠ k' → get (put s k o) k' = get s k')
    (hlocal : ∀ l, ∃ f : O → Out (O × A), ∀ s, run s l = (do let (o, r) ← f (get s (key l)); pure (put s (key l) o, r)))
    (hext : ∀ s t, (∀ k, get s k = get t k) → s = t) (a : Bytes) {ls : List L} {s s' : S} {rs : List A} (h : runList run s ls = .ok (s', rs))
    (ha : get s' a = get s a) : runList run s (without key a ls) = .ok (s', answersWithout key a ls rs) := by
  obtain ⟨t', k1, k2, k3⟩ := run_without hgs hgn hlocal a ls (fun _ _ => rfl) h
  rw [k1, hext t' s' fun k => ?_]
  by_cases hk : k = a
  · rw [hk, k3, ha]
  · exact k2 k hk

/-- If the entry `l` does the same whatever the account holds, what was done to the account before may as well have been left out. -/
theorem run_without_before (hgs : ∀ s k o, get (put s k o) k = o) (hgn : ∀ s k k' o, k ≠ k' → get (put s k o) k' = get s k')
    (hlocal : ∀ l, ∃ f : O → Out (O × A), ∀ s, run s l = (do let (o, r) ← f (get s (key l)); pure (put s (key l) o, r)))
    {l : L} {s1 s2 : S} {r : A} {ls : List L} {s : S} {rs : List A} (h1 : runList run s ls = .ok (s1, rs)) (h2 : run s1 l = .ok (s2, r))
    (hl : ∀ t, (∀ k, k ≠ key l → get t k = get s1 k) → get t (key l) = get s (key l) → run t l = run s1 l) :
    runList run s (without key (key l) ls ++ [l]) = .ok (s2, answersWithout key (key l) ls rs ++ [r]) := by
  obtain ⟨t', k1, k2, k3⟩ := run_without hgs hgn hlocal (key l) ls (fun _ _ => rfl) h1
  rw [runList_append, k1]
  simp only [Out.bind_ok, runList, hl t' k2 k3, h2, Out.pure_eq]

end

end Svr
