import Verif.Bytes

/-!
# Per-account simulation

A database `S` driven by log entries `L` simulates a per-account specification `step` if one entry
answers what the specification answers for the account it names, updates the abstract view of that
account accordingly, and leaves the view of every other account alone. Then whole histories agree with
the specification run on each account's own entries.
-/

namespace Svr

/-- Run a per-account specification on a list of entries. -/
def specRun {V L A : Type} (step : Option V → L → Option V × A) : Option V → List L → Option V × List A
  | o, [] => (o, [])
  | o, l :: ls => ((specRun step (step o l).1 ls).1, (step o l).2 :: (specRun step (step o l).1 ls).2)

theorem specRun_append {V L A : Type} (step : Option V → L → Option V × A) (o : Option V) (l1 l2 : List L) :
    specRun step o (l1 ++ l2) = ((specRun step (specRun step o l1).1 l2).1,
      (specRun step o l1).2 ++ (specRun step (specRun step o l1).1 l2).2) := by
  induction l1 generalizing o with
  | nil => simp [specRun]
  | cons l ls ih => simp [specRun, ih]

theorem specRun_length {V L A : Type} (step : Option V → L → Option V × A) (o : Option V) (ls : List L) :
    (specRun step o ls).2.length = ls.length := by
  induction ls generalizing o with
  | nil => rfl
  | cons l ls ih => simp [specRun, ih]

/-- The entries naming account `a`. -/
def entriesOf {L : Type} (key : L → Bytes) (a : Bytes) (ls : List L) : List L := ls.filter (fun l => key l = a)

/-- The answers to the entries naming account `a`. -/
def answersOf {L A : Type} (key : L → Bytes) (a : Bytes) : List L → List A → List A
  | l :: ls, r :: rs => if key l = a then r :: answersOf key a ls rs else answersOf key a ls rs
  | _, _ => []

/-- Apply a history of entries, collecting the answers. -/
def runList {S L A : Type} (run : S → L → Out (S × A)) : S → List L → Out (S × List A)
  | s, [] => .ok (s, [])
  | s, l :: ls => do
    let (s1, r) ← run s l
    let (s2, rs) ← runList run s1 ls
    pure (s2, r :: rs)

/-- One-step simulation. -/
structure Sim (S L V A : Type) where
  run : S → L → Out (S × A)
  key : L → Bytes
  valid : L → Prop
  inv : S → Prop
  look : S → Bytes → Option V
  step : Option V → L → Option V × A
  sim : ∀ s l, inv s → valid l →
    ∃ s', run s l = .ok (s', (step (look s (key l)) l).2) ∧ inv s' ∧
      look s' (key l) = (step (look s (key l)) l).1 ∧ ∀ k, k ≠ key l → look s' k = look s k

theorem Sim.runList_spec {S L V A : Type} (M : Sim S L V A) (ls : List L) (s : S) (hi : M.inv s)
    (hv : ∀ l ∈ ls, M.valid l) :
    ∃ s' rs, runList M.run s ls = .ok (s', rs) ∧ M.inv s' ∧ rs.length = ls.length ∧
      ∀ a, M.look s' a = (specRun M.step (M.look s a) (entriesOf M.key a ls)).1 ∧
        answersOf M.key a ls rs = (specRun M.step (M.look s a) (entriesOf M.key a ls)).2 := by
  induction ls generalizing s with
  | nil => exact ⟨s, [], rfl, hi, rfl, fun a => ⟨rfl, rfl⟩⟩
  | cons l ls ih =>
    obtain ⟨s1, h1, i1, l1, l1'⟩ := M.sim s l hi (hv l List.mem_cons_self)
    obtain ⟨s2, rs, h2, i2, hlen, hall⟩ := ih s1 i1 (fun x hx => hv x (List.mem_cons_of_mem _ hx))
    refine ⟨s2, _, by simp only [runList, h1, h2, Out.bind_ok, Out.pure_eq]; rfl, i2, by simp [hlen], ?_⟩
    intro a
    obtain ⟨ha1, ha2⟩ := hall a
    by_cases hk : M.key l = a
    · subst hk
      have he : entriesOf M.key (M.key l) (l :: ls) = l :: entriesOf M.key (M.key l) ls := by simp [entriesOf]
      rw [he]
      simp only [specRun, answersOf, if_true]
      rw [ha1, ha2, l1]
      exact ⟨rfl, rfl⟩
    · have he : entriesOf M.key a (l :: ls) = entriesOf M.key a ls := by simp [entriesOf, hk]
      rw [he]
      simp only [answersOf, if_neg hk]
      rw [ha1, ha2, l1' a (fun e => hk e.symm)]
      exact ⟨rfl, rfl⟩

/-- The outcome of a call, forgetting the database: the response, or how the call failed. -/
def outcome {α β : Type} : Out (α × β) → Out β
  | .ok (_, b) => .ok b
  | .abort => .abort
  | .ub => .ub

/-- If entries read and write only the data `get s k` of the account they name, then an entry of one
account does not change the outcome of any later sequence of entries of another account. -/
theorem isolation_of_local {S L O A : Type} (run : S → L → Out (S × A)) (key : L → Bytes)
    (get : S → Bytes → O) (put : S → Bytes → O → S)
    (hgs : ∀ s k o, get (put s k o) k = o) (hgn : ∀ s k k' o, k ≠ k' → get (put s k o) k' = get s k')
    (hlocal : ∀ l, ∃ f : O → Out (O × A), ∀ s,
      run s l = (do let (o, r) ← f (get s (key l)); pure (put s (key l) o, r)))
    (s s' : S) (la : L) (ra : A) (h : run s la = .ok (s', ra)) (b : Bytes) (hb : b ≠ key la) (ls : List L)
    (hls : ∀ l ∈ ls, key l = b) :
    outcome (runList run s' ls) = outcome (runList run s ls) := by
  have hfind : get s' b = get s b := by
    obtain ⟨f, hf⟩ := hlocal la
    rw [hf s] at h
    cases hx : f (get s (key la)) with
    | abort => rw [hx] at h; simp at h
    | ub => rw [hx] at h; simp at h
    | ok q =>
      rw [hx] at h
      simp only [Out.bind_ok, Out.pure_eq, Out.ok.injEq, Prod.mk.injEq] at h
      rw [← h.1, hgn _ _ _ _ (fun e => hb e.symm)]
  clear h
  induction ls generalizing s s' with
  | nil => rfl
  | cons l ls ih =>
    obtain ⟨f, hf⟩ := hlocal l
    have hl := hls l List.mem_cons_self
    simp only [runList]
    rw [hf s, hf s', hl, hfind]
    cases hx : f (get s b) with
    | abort => simp
    | ub => simp
    | ok q =>
      obtain ⟨o, r⟩ := q
      simp only [Out.bind_ok, Out.pure_eq]
      have := ih (put s b o) (put s' b o) (fun x hx => hls x (List.mem_cons_of_mem _ hx)) (by rw [hgs, hgs])
      cases h1 : runList run (put s b o) ls <;> cases h2 : runList run (put s' b o) ls <;>
        rw [h1, h2] at this <;> simp_all [outcome]

/-- Splitting a run. -/
theorem runList_append {S L A : Type} (run : S → L → Out (S × A)) (s : S) (l1 l2 : List L) :
    runList run s (l1 ++ l2) = (do
      let (s1, r1) ← runList run s l1
      let (s2, r2) ← runList run s1 l2
      pure (s2, r1 ++ r2)) := by
  induction l1 generalizing s with
  | nil =>
    simp only [List.nil_append, runList, Out.bind_ok]
    cases runList run s l2 <;> rfl
  | cons l ls ih =>
    simp only [List.cons_append, runList, ih]
    cases h : run s l with
    | abort => simp
    | ub => simp
    | ok q =>
      obtain ⟨s1, r⟩ := q
      simp only [Out.bind_ok]
      cases h1 : runList run s1 ls with
      | abort => simp
      | ub => simp
      | ok q1 =>
        obtain ⟨s2, rs⟩ := q1
        simp only [Out.bind_ok, Out.pure_eq]
        cases h2 : runList run s2 l2 <;> simp

end Svr
