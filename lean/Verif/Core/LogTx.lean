import Verif.Core.Apply
import Verif.Spec.Fate

/-! # Completion handlers: lemmas -/

namespace Svr.Core
open Raft (Entry Inner)
variable {D L E : Type} {pr : Proto D L E} {pm : Bytes → Option Minimums.Limits} {me : Bytes}

/-- The registrations of `w` that wait. -/
def Side.mine (s : Side D E) (w : Nat) : List (Nat × LogTx) := s.txs.filter fun x => x.2.who = w
/-- The calls of `w`. -/
def Side.got (s : Side D E) (w : Nat) : List (Done E) := (s.done.filter fun x => x.1 = w).map (·.2)

theorem insertTx_filter_ne {idx : Nat} {t : LogTx} {w : Nat} (h : t.who ≠ w) : ∀ l : List (Nat × LogTx),
    (insertTx idx t l).filter (fun x => x.2.who = w) = l.filter (fun x => x.2.who = w)
  | [] => by simp [insertTx, h]
  | x :: l => by
    unfold insertTx
    split
    · simp only [List.filter_cons, insertTx_filter_ne h l]
    · simp [List.filter_cons, h]

theorem insertTx_filter_new {idx : Nat} {t : LogTx} : ∀ {l : List (Nat × LogTx)}, l.filter (fun x => x.2.who = t.who) = [] →
    (insertTx idx t l).filter (fun x => x.2.who = t.who) = [(idx, t)]
  | [], _ => by simp [insertTx]
  | x :: l, h => by
    have hx : ¬ x.2.who = t.who ∧ l.filter (fun x => x.2.who = t.who) = [] := by
      by_cases k : x.2.who = t.who
      · simp [k] at h
      · simp only [List.filter_cons, k, decide_false, Bool.false_eq_true, if_false] at h
        exact ⟨k, h⟩
    unfold insertTx
    split
    · simp only [List.filter_cons, hx.1, decide_false, Bool.false_eq_true, if_false]
      exact insertTx_filter_new hx.2
    · simp [hx.1, hx.2]

theorem containsMe_iff {g : List (Bytes × Bool)} : containsMe me g = true ↔ ∃ b, (me, b) ∈ g := by
  simp [containsMe]

theorem excludes_iff {e : Entry} : Spec.Excludes me e ↔ ∃ g, e.inner = .membership g ∧ containsMe me g = false := by
  constructor
  · rintro ⟨g, h1, h2⟩
    refine ⟨g, h1, ?_⟩
    rw [← Bool.not_eq_true, containsMe_iff]
    rintro ⟨b, h⟩; exact h2 b h
  · rintro ⟨g, h1, h2⟩
    refine ⟨g, h1, fun b hb => ?_⟩
    rw [containsMe_iff.mpr ⟨b, hb⟩] at h2; cases h2

theorem includes_iff {e : Entry} : Spec.Includes me e ↔ ∃ g, e.inner = .membership g ∧ containsMe me g = true := by
  constructor
  · rintro ⟨g, b, h1, h2⟩; exact ⟨g, h1, containsMe_iff.mpr ⟨b, h2⟩⟩
  · rintro ⟨g, h1, h2⟩; obtain ⟨b, hb⟩ := containsMe_iff.mp h2; exact ⟨g, b, h1, hb⟩

/-- What the `switch` does to the handlers. -/
theorem inner_cases {s s' : Side D E} {i : Inner} {eff : Option E} (h : s.inner pr pm me i = .ok (s', eff)) :
    s'.last = s.last ∧ s'.leaf = s.leaf ∧ s'.effects = s.effects ∧
    ((s'.txs = s.txs ∧ s'.done = s.done ∧
        ((s'.member = s.member ∧ ∀ g, i = .membership g → s.member = containsMe me g) ∨
         (s.member = false ∧ s'.member = true ∧ ∃ g, i = .membership g ∧ containsMe me g = true))) ∨
     (s.member = true ∧ s'.member = false ∧ (∃ g, i = .membership g ∧ containsMe me g = false) ∧ s'.txs = [] ∧
        s'.done = s.done ++ s.txs.map fun t => (t.2.who, .removed))) := by
  cases i with
  | membership g =>
    simp only [Side.inner, Out.ok.injEq, Prod.mk.injEq] at h
    obtain ⟨rfl, rfl⟩ := h
    unfold Side.membershipChange
    cases hm : s.member <;> cases hc : containsMe me g <;> simp [hc, hm]
  | data b =>
    obtain ⟨⟨db, ef⟩, h1, h⟩ := Out.bind_eq_ok.mp h
    cases h
    exact ⟨rfl, rfl, rfl, .inl ⟨rfl, rfl, .inl ⟨rfl, by simp⟩⟩⟩
  | minimums b =>
    simp only [Side.inner] at h
    split at h
    · cases h
    · obtain ⟨l, h1, h⟩ := Out.bind_eq_ok.mp h
      cases h
      exact ⟨rfl, rfl, rfl, .inl ⟨rfl, rfl, .inl ⟨rfl, by simp⟩⟩⟩
  | notSet =>
    cases h
    exact ⟨rfl, rfl, rfl, .inl ⟨rfl, rfl, .inl ⟨rfl, by simp⟩⟩⟩

theorem take_eq {s s' : Side D E} {path : Bool} {idx : Nat} {e : Entry} (h : s.take pr pm me path idx e = .ok s') :
    ∃ s1 eff, ({ s with last := idx, leaf := be64 idx } : Side D E).inner pr pm me e.inner = .ok (s1, eff) ∧
      s' = { s1.settle idx e eff with effects := s1.effects ++ [(idx, eff)] } := by
  unfold Side.take at h
  obtain ⟨_, _, h⟩ := Out.bind_eq_ok.mp h
  obtain ⟨⟨s1, eff⟩, h1, h⟩ := Out.bind_eq_ok.mp h
  cases h
  exact ⟨s1, eff, h1, rfl⟩

/-- Membership after an entry. -/
def memberAfter (me : Bytes) (m : Bool) (e : Entry) : Bool :=
  match e.inner with
  | .membership g => containsMe me g
  | _ => m

theorem take_member {s s' : Side D E} {path : Bool} {idx : Nat} {e : Entry} (h : s.take pr pm me path idx e = .ok s') :
    s'.member = memberAfter me s.member e := by
  obtain ⟨s1, eff, h1, rfl⟩ := take_eq h
  obtain ⟨_, _, _, h2⟩ := inner_cases h1
  show s1.member = _
  unfold memberAfter
  rcases h2 with ⟨_, _, ⟨h3, h4⟩ | ⟨_, h3, g, h4, h5⟩⟩ | ⟨_, h3, ⟨g, h4, h5⟩, _⟩
  · rw [h3]
    split
    · rename_i g hg; exact h4 g hg
    · rfl
  · rw [h4, h3]; exact h5.symm
  · rw [h4, h3]; exact h5.symm

/-- A handler that waits, and an entry. -/
theorem take_waiting {s s' : Side D E} {path : Bool} {i idx : Nat} {e : Entry} {t : LogTx}
    (h : s.take pr pm me path i e = .ok s') (hm : s.mine t.who = [(idx, t)]) :
    (s.member = true ∧ Spec.Excludes me e ∧ s'.mine t.who = [] ∧ s'.got t.who = s.got t.who ++ [.removed]) ∨
    (¬ (s.member = true ∧ Spec.Excludes me e) ∧ i = idx ∧ ∃ eff, (idx, eff) ∈ s'.effects ∧ s'.mine t.who = [] ∧
      s'.got t.who = s.got t.who ++ [verdict e eff t]) ∨
    (¬ (s.member = true ∧ Spec.Excludes me e) ∧ i ≠ idx ∧ s'.mine t.who = [(idx, t)] ∧ s'.got t.who = s.got t.who) := by
  obtain ⟨s1, eff, h1, rfl⟩ := take_eq h
  obtain ⟨_, _, h0, h2⟩ := inner_cases h1
  have hstay : s1.txs = s.txs → s1.done = s.done → ¬ (s.member = true ∧ Spec.Excludes me e) →
      (¬ (s.member = true ∧ Spec.Excludes me e) ∧ i = idx ∧ ∃ eff', (idx, eff') ∈ s1.effects ++ [(i, eff)] ∧
        (s1.settle i e eff).mine t.who = [] ∧
        (s1.settle i e eff).got t.who = s.got t.who ++ [verdict e eff' t]) ∨
      (¬ (s.member = true ∧ Spec.Excludes me e) ∧ i ≠ idx ∧ (s1.settle i e eff).mine t.who = [(idx, t)] ∧
        (s1.settle i e eff).got t.who = s.got t.who) := by
    intro a b c
    have e1 : (s1.settle i e eff).mine t.who = ([(idx, t)] : List (Nat × LogTx)).filter (fun x => x.1 ≠ i) := by
      rw [← hm]
      simp only [Side.mine, Side.settle, a, List.filter_filter]
      congr 1; funext x; exact Bool.and_comm ..
    have e2 : (s1.settle i e eff).got t.who = s.got t.who ++
        (([(idx, t)] : List (Nat × LogTx)).filter (fun x => x.1 = i)).map (fun x => verdict e eff x.2) := by
      rw [← hm]
      simp only [Side.got, Side.settle, a, b, Side.mine, List.filter_append, List.map_append, List.filter_map, List.map_map,
        List.filter_filter]
      congr 1
      show List.map (fun x : Nat × LogTx => verdict e eff x.2) _ = _
      exact congrArg _ (List.filter_congr fun x _ => by simp [Function.comp, Bool.and_comm])
    by_cases k : i = idx
    · left
      subst k
      refine ⟨c, rfl, eff, by simp, by rw [e1]; simp, by rw [e2]; simp⟩
    · right
      refine ⟨c, k, ?_, ?_⟩
      · rw [e1]; simp [Ne.symm k]
      · rw [e2]; simp [Ne.symm k]
  rcases h2 with ⟨a, b, ⟨_, h4⟩ | ⟨h3, _, _⟩⟩ | ⟨h3, _, h4, a, b⟩
  · right
    refine hstay a b ?_
    rintro ⟨k1, k2⟩
    obtain ⟨g, k3, k4⟩ := excludes_iff.mp k2
    have := h4 g k3
    rw [k4] at this
    rw [show s.member = false from this] at k1; cases k1
  · right
    refine hstay a b ?_
    rintro ⟨k1, _⟩
    rw [show s.member = false from h3] at k1; cases k1
  · left
    refine ⟨h3, excludes_iff.mpr h4, ?_, ?_⟩
    · simp [Side.mine, Side.settle, a]
    · have e2 : s1.got t.who = s.got t.who ++ ([(idx, t)] : List (Nat × LogTx)).map (fun _ => Done.removed) := by
        rw [← hm]
        simp only [Side.got, b, Side.mine, List.filter_append, List.map_append, List.filter_map, List.map_map]
        rfl
      have e3 : ({ s1.settle i e eff with effects := s1.effects ++ [(i, eff)] } : Side D E).got t.who = s1.got t.who := by
        simp [Side.got, Side.settle, a]
      rw [e3, e2]; rfl

/-- A handler that does not wait is not called. -/
theorem take_absent {s s' : Side D E} {path : Bool} {i : Nat} {e : Entry} {w : Nat}
    (h : s.take pr pm me path i e = .ok s') (hm : s.mine w = []) : s'.mine w = [] ∧ s'.got w = s.got w := by
  obtain ⟨s1, eff, h1, rfl⟩ := take_eq h
  obtain ⟨_, _, h0, h2⟩ := inner_cases h1
  have hno : ∀ x ∈ s.txs, x.2.who ≠ w := by
    intro x hx k
    have : x ∈ s.mine w := List.mem_filter.mpr ⟨hx, by simpa using k⟩
    rw [hm] at this; cases this
  rcases h2 with ⟨a, b, _⟩ | ⟨h3, _, h4, a, b⟩
  · constructor
    · simp only [Side.mine, Side.settle, a, List.filter_eq_nil_iff]
      intro x hx
      simpa using hno x (List.mem_filter.mp hx).1
    · simp only [Side.got, Side.settle, a, b, List.filter_append, List.map_append]
      rw [show (List.filter (fun x => decide (x.1 = w)) ((s.txs.filter fun t => decide (t.1 = i)).map fun t => (t.2.who, verdict e eff t.2))) = [] from ?_]
      · simp
      · rw [List.filter_eq_nil_iff]
        intro x hx
        obtain ⟨y, hy, rfl⟩ := List.mem_map.mp hx
        simpa using hno y (List.mem_filter.mp hy).1
  · constructor
    · simp [Side.mine, Side.settle, a]
    · simp only [Side.got, Side.settle, a, b, List.filter_append, List.map_append, List.filter_nil, List.map_nil, List.append_nil]
      rw [show (List.filter (fun x => decide (x.1 = w)) (s.txs.map fun t => (t.2.who, Done.removed))) = ([] : List (Nat × Done E)) from ?_]
      · simp
      · rw [List.filter_eq_nil_iff]
        intro x hx
        obtain ⟨y, hy, rfl⟩ := List.mem_map.mp hx
        simpa using hno y hy

theorem take_effects {s s' : Side D E} {path : Bool} {i : Nat} {e : Entry} (h : s.take pr pm me path i e = .ok s') :
    ∃ eff, s'.effects = s.effects ++ [(i, eff)] := by
  obtain ⟨s1, eff, h1, rfl⟩ := take_eq h
  obtain ⟨_, _, h0, _⟩ := inner_cases h1
  exact ⟨eff, by show s1.effects ++ _ = _; rw [h0]⟩

/-- Nobody registers `w` in these events. -/
def Fresh (w : Nat) (evs : List Ev) : Prop := ∀ idx t, Ev.add idx t ∈ evs → t.who ≠ w

theorem Fresh.tail {w : Nat} {ev : Ev} {evs : List Ev} (h : Fresh w (ev :: evs)) : Fresh w evs := fun i t k => h i t (List.mem_cons_of_mem _ k)

theorem run_effects {s' : Side D E} : ∀ {evs : List Ev} {s : Side D E}, s.run pr pm me evs = .ok s' → s.effects <+: s'.effects := by
  intro evs
  induction evs with
  | nil => intro s h; cases h; exact List.prefix_rfl
  | cons ev evs ih =>
    intro s h
    obtain ⟨s1, h1, h⟩ := Out.bind_eq_ok.mp h
    refine List.IsPrefix.trans ?_ (ih h)
    cases ev with
    | add idx t => cases h1; exact List.prefix_rfl
    | take p i e => obtain ⟨eff, k⟩ := take_effects h1; rw [k]; exact List.prefix_append ..

theorem add_other {s : Side D E} {idx : Nat} {t : LogTx} {w : Nat} (h : t.who ≠ w) :
    (s.add idx t).mine w = s.mine w ∧ (s.add idx t).got w = s.got w := ⟨insertTx_filter_ne h _, rfl⟩

theorem run_absent {w : Nat} {s' : Side D E} : ∀ {evs : List Ev} {s : Side D E}, Fresh w evs → s.run pr pm me evs = .ok s' →
    s.mine w = [] → s'.mine w = [] ∧ s'.got w = s.got w := by
  intro evs
  induction evs with
  | nil => intro s _ h hm; cases h; exact ⟨hm, rfl⟩
  | cons ev evs ih =>
    intro s hf h hm
    obtain ⟨s1, h1, h⟩ := Out.bind_eq_ok.mp h
    have key : s1.mine w = [] ∧ s1.got w = s.got w := by
      cases ev with
      | add idx t =>
        cases h1
        have := add_other (s := s) (idx := idx) (hf idx t List.mem_cons_self)
        exact ⟨this.1.trans hm, this.2⟩
      | take p i e => exact take_absent h1 hm
    obtain ⟨a, b⟩ := ih hf.tail h key.1
    exact ⟨a, b.trans key.2⟩

end Svr.Core
