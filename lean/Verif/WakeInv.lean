import Verif.Wake

/-!
# Invariants of the waiting and waking in `WriteQueue`
-/

namespace Svr.Wake

structure Inv (s : St) : Prop where
  doze : s.wpc = .doze → s.curr = 0
  sleep : s.wpc = .asleep → s.curr = 0 ∨ .writeNote ∈ s.threads
  busy : s.wpc = .sending ∨ s.wpc = .finish → 0 < s.other
  free : s.wpc = .top ∨ s.wpc = .lock ∨ s.wpc = .doze ∨ s.wpc = .asleep → s.other = 0
  woken : ∀ w, .flushWait w ∈ s.threads → w ≤ s.writes → s.wpc = .top
  target : ∀ w, (.flushWait w ∈ s.threads ∨ ∃ l, .flushBack w l ∈ s.threads) → w ≤ flushTarget s

theorem mem_swap {p x y : CPc} {a b : List CPc} (h : p ∈ a ++ y :: b) (hy : p ≠ y) : p ∈ a ++ x :: b := by
  simp only [List.mem_append, List.mem_cons] at h ⊢
  rcases h with h | h | h
  · exact .inl h
  · exact absurd h hy
  · exact .inr (.inr h)

theorem mem_wakeFlush {p : CPc} {l : List CPc} (h : p ∈ l.map wakeFlush) :
    (∀ w, p ≠ .flushWait w) ∧ (p ∈ l ∨ ∃ w, p = .flushBack w false ∧ .flushWait w ∈ l) := by
  obtain ⟨x, hx, e⟩ := List.mem_map.mp h
  cases x <;> simp only [wakeFlush] at e <;> subst e <;>
    first
    | exact ⟨by rintro _ ⟨⟩, .inl hx⟩
    | exact ⟨by rintro _ ⟨⟩, .inr ⟨_, rfl, hx⟩⟩

theorem Inv.writer {s s' : St} {f : Bool} (i : Inv s) (h : writer f s = some (.ok s')) : Inv s' := by
  unfold Wake.writer at h
  cases hw : s.wpc with
  | top =>
    simp only [hw, Option.some.injEq, Out.ok.injEq] at h
    subst h
    refine ⟨by rintro ⟨⟩, by rintro ⟨⟩, by rintro (⟨⟨⟩⟩ | ⟨⟨⟩⟩), fun _ => i.free (.inl hw), ?_, ?_⟩
    · intro w hm
      exact absurd rfl ((mem_wakeFlush hm).1 w)
    · rintro w (hm | ⟨l, hm⟩)
      · exact absurd rfl ((mem_wakeFlush hm).1 w)
      · rcases (mem_wakeFlush hm).2 with hm | ⟨w', e, hm2⟩
        · exact i.target w (.inr ⟨l, hm⟩)
        · cases e
          exact i.target w (.inl hm2)
  | lock =>
    simp only [hw] at h
    have ho := i.free (.inr (.inl hw))
    split_ifs at h with h1 h2
    · simp only [Option.some.injEq, Out.ok.injEq] at h
      subst h
      refine ⟨fun _ => h1.1, by rintro ⟨⟩, by rintro (⟨⟨⟩⟩ | ⟨⟨⟩⟩), fun _ => ho, ?_, i.target⟩
      intro w hm hle
      exact absurd (i.woken w hm hle) (by rw [hw]; rintro ⟨⟩)
    · simp only [Option.some.injEq, Out.ok.injEq] at h
      subst h
      refine ⟨by rintro ⟨⟩, by rintro ⟨⟩, by rintro (⟨⟨⟩⟩ | ⟨⟨⟩⟩), by rintro (⟨⟨⟩⟩ | ⟨⟨⟩⟩ | ⟨⟨⟩⟩ | ⟨⟨⟩⟩), ?_, i.target⟩
      intro w hm hle
      exact absurd (i.woken w hm hle) (by rw [hw]; rintro ⟨⟩)
    · have hc : 0 < s.curr := by
        rcases Nat.eq_zero_or_pos s.curr with hz | hz
        · exfalso
          cases hd : s.done
          · exact h1 ⟨hz, hd⟩
          · exact h2 ⟨hd, hz⟩
        · exact hz
      have h' : s' = { s with curr := s.other, other := s.curr, wpc := .sending } := by
        simp only [ho, hc, decide_true, Out.check, Out.bind_ok, Option.some.injEq, Out.ok.injEq, if_true] at h
        rw [← h, ho]
      subst h'
      refine ⟨by rintro ⟨⟩, by rintro ⟨⟩, fun _ => hc, by rintro (⟨⟨⟩⟩ | ⟨⟨⟩⟩ | ⟨⟨⟩⟩ | ⟨⟨⟩⟩), ?_, ?_⟩
      · intro w hm hle
        exact absurd (i.woken w hm hle) (by rw [hw]; rintro ⟨⟩)
      · intro w hm
        have := i.target w hm
        simp only [flushTarget] at this ⊢
        omega
  | doze =>
    simp only [hw, Option.some.injEq, Out.ok.injEq] at h
    subst h
    refine ⟨by rintro ⟨⟩, fun _ => .inl (i.doze hw), by rintro (⟨⟨⟩⟩ | ⟨⟨⟩⟩), fun _ => i.free (.inr (.inr (.inl hw))), ?_, i.target⟩
    intro w hm hle
    exact absurd (i.woken w hm hle) (by rw [hw]; rintro ⟨⟩)
  | asleep => simp only [hw] at h; cases h
  | stopped => simp only [hw] at h; cases h
  | sending =>
    simp only [hw, Option.some.injEq, Out.ok.injEq] at h
    subst h
    have ho := i.busy (.inl hw)
    cases f
    · refine ⟨by rintro ⟨⟩, by rintro ⟨⟩, fun _ => ho, by rintro (⟨⟨⟩⟩ | ⟨⟨⟩⟩ | ⟨⟨⟩⟩ | ⟨⟨⟩⟩), ?_, i.target⟩
      intro w hm hle
      exact absurd (i.woken w hm hle) (by rw [hw]; rintro ⟨⟩)
    · refine ⟨by rintro ⟨⟩, by rintro ⟨⟩, fun _ => ho, by rintro (⟨⟨⟩⟩ | ⟨⟨⟩⟩ | ⟨⟨⟩⟩ | ⟨⟨⟩⟩), ?_, i.target⟩
      intro w hm hle
      exact absurd (i.woken w hm hle) (by rw [hw]; rintro ⟨⟩)
  | finish =>
    simp only [hw, Option.some.injEq, Out.ok.injEq] at h
    subst h
    have ho := i.busy (.inr hw)
    refine ⟨by rintro ⟨⟩, by rintro ⟨⟩, by rintro (⟨⟨⟩⟩ | ⟨⟨⟩⟩), fun _ => rfl, fun _ _ _ => rfl, ?_⟩
    intro w hm
    have := i.target w hm
    simp only [flushTarget, ne_eq, not_true_eq_false, if_false] at this ⊢
    rw [if_pos (show ¬ s.other = 0 by omega)] at this
    omega

theorem Inv.writer_total {s : St} {f : Bool} {o : Out St} (i : Inv s) (h : Wake.writer f s = some o) : ∃ s', o = .ok s' := by
  unfold Wake.writer at h
  cases hw : s.wpc with
  | lock =>
    simp only [hw] at h
    have ho := i.free (.inr (.inl hw))
    split_ifs at h with h1 h2
    · exact ⟨_, (Option.some.inj h).symm⟩
    · exact ⟨_, (Option.some.inj h).symm⟩
    · have hc : 0 < s.curr := by
        rcases Nat.eq_zero_or_pos s.curr with hz | hz
        · exfalso
          cases hd : s.done
          · exact h1 ⟨hz, hd⟩
          · exact h2 ⟨hd, hz⟩
        · exact hz
      simp only [ho, hc, decide_true, Out.check, Out.bind_ok, if_true] at h
      exact ⟨_, (Option.some.inj h).symm⟩
  | _ => simp only [hw] at h <;> first | exact ⟨_, (Option.some.inj h).symm⟩ | cases h

/-- One thread moves to a place where it is not asleep and nothing else changes. -/
theorem Inv.move {s : St} (i : Inv s) {a b : List CPc} {p p' : CPc} (h : s.threads = a ++ p :: b) (hn : p ≠ .writeNote)
    (h1 : ∀ w, p' = .flushWait w → ¬ w ≤ s.writes) (h2 : ∀ w, p' = .flushWait w ∨ (∃ l, p' = .flushBack w l) → w ≤ flushTarget s) :
    Inv { s with threads := a ++ p' :: b } := by
  have i2 := i.sleep
  have i5 := i.woken
  have i6 := i.target
  rw [h] at i2 i5 i6
  refine ⟨i.doze, ?_, i.busy, i.free, ?_, ?_⟩
  · intro hw
    rcases i2 hw with hc | hm
    · exact .inl hc
    · exact .inr (mem_swap hm hn.symm)
  · intro w hm hle
    by_cases e : CPc.flushWait w = p'
    · exact absurd hle (h1 w e.symm)
    · exact i5 w (mem_swap hm e) hle
  · intro w hm
    show w ≤ flushTarget s
    rcases hm with hm | ⟨l, hm⟩
    · by_cases e : CPc.flushWait w = p'
      · exact h2 w (.inl e.symm)
      · exact i6 w (.inl (mem_swap hm e))
    · by_cases e : CPc.flushBack w l = p'
      · exact h2 w (.inr ⟨l, e.symm⟩)
      · exact i6 w (.inr ⟨l, mem_swap hm e⟩)

theorem Inv.note {s : St} (i : Inv s) {a b : List CPc} {p : CPc} (h : s.threads = a ++ p :: b) (hn : p = .writeNote ∨ p = .killNote) :
    Inv { s with wpc := wakeWriter s.wpc, threads := a ++ .out :: b } := by
  have i5 := i.woken
  have i6 := i.target
  rw [h] at i5 i6
  have hmem : ∀ x : CPc, x ∈ a ++ CPc.out :: b → x ≠ .out → x ∈ a ++ p :: b := fun x hx hne => mem_swap hx hne
  have hfree := i.free
  have hbusy := i.busy
  have hdoze := i.doze
  have hout : ∀ w, .flushWait w ∈ a ++ CPc.out :: b → .flushWait w ∈ a ++ p :: b := fun w hm => hmem _ hm (by rintro ⟨⟩)
  have htgt : ∀ w, (.flushWait w ∈ a ++ CPc.out :: b ∨ ∃ l, .flushBack w l ∈ a ++ CPc.out :: b) → w ≤ flushTarget s := by
    rintro w (hm | ⟨l, hm⟩)
    · exact i6 w (.inl (hout w hm))
    · exact i6 w (.inr ⟨l, hmem _ hm (by rintro ⟨⟩)⟩)
  refine ⟨?_, ?_, ?_, ?_, ?_, htgt⟩
  · intro hw
    apply hdoze
    revert hw
    show wakeWriter s.wpc = .doze → _
    cases s.wpc <;> simp [wakeWriter]
  · intro hw
    exfalso
    revert hw
    show wakeWriter s.wpc = .asleep → _
    cases s.wpc <;> simp [wakeWriter]
  · intro hw
    apply hbusy
    revert hw
    show wakeWriter s.wpc = .sending ∨ wakeWriter s.wpc = .finish → _
    cases s.wpc <;> simp [wakeWriter]
  · intro hw
    apply hfree
    revert hw
    show (wakeWriter s.wpc = .top ∨ wakeWriter s.wpc = .lock ∨ wakeWriter s.wpc = .doze ∨ wakeWriter s.wpc = .asleep) → _
    cases s.wpc <;> simp [wakeWriter]
  · intro w hm hle
    have := i5 w (hout w hm) hle
    show wakeWriter s.wpc = .top
    rw [this]
    rfl

theorem flushTest_cases (s : St) (w : Nat) (l : Bool) : flushTest s w l = .out ∨ (flushTest s w l = .flushWait w ∧ ¬ w ≤ s.writes) := by
  unfold flushTest
  split_ifs with h
  · exact .inl rfl
  · exact .inr ⟨rfl, fun hw => h (.inl hw)⟩

theorem Inv.client {s s' : St} (i : Inv s) {a b : List CPc} {p p' : CPc} (h : s.threads = a ++ p :: b)
    (hc : client s p = some (s', p')) : Inv { s' with threads := a ++ p' :: b } := by
  cases p with
  | out => cases hc
  | flushWait w => cases hc
  | write k =>
    simp only [Wake.client] at hc
    split_ifs at hc with hw
    cases hc
    have i5 := i.woken
    have i6 := i.target
    rw [h] at i5 i6
    refine ⟨fun e => absurd e hw, fun _ => .inr (by simp), i.busy, i.free, ?_, ?_⟩
    · intro w hm hle
      exact i5 w (mem_swap hm (by rintro ⟨⟩)) hle
    · intro w hm
      have : w ≤ flushTarget s := by
        rcases hm with hm | ⟨l, hm⟩
        · exact i6 w (.inl (mem_swap hm (by rintro ⟨⟩)))
        · exact i6 w (.inr ⟨l, mem_swap hm (by rintro ⟨⟩)⟩)
      refine Nat.le_trans this ?_
      simp only [flushTarget]
      split_ifs <;> omega
  | writeNote =>
    cases hc
    exact i.note h (.inl rfl)
  | killNote =>
    cases hc
    exact i.note h (.inr rfl)
  | kill =>
    cases hc
    have := i.move (p' := .killNote) h (by rintro ⟨⟩) (by rintro _ ⟨⟩) (by rintro _ (⟨⟨⟩⟩ | ⟨_, ⟨⟩⟩))
    exact ⟨this.doze, this.sleep, this.busy, this.free, this.woken, this.target⟩
  | flush =>
    simp only [Wake.client] at hc
    split_ifs at hc with hw
    cases hc
    rcases flushTest_cases s (flushTarget s) false with e | ⟨e, hn⟩ <;> rw [e]
    · exact i.move h (by rintro ⟨⟩) (by rintro _ ⟨⟩) (by rintro _ (⟨⟨⟩⟩ | ⟨_, ⟨⟩⟩))
    · refine i.move h (by rintro ⟨⟩) ?_ ?_
      · rintro w e; cases e; exact hn
      · rintro w (e | ⟨_, e⟩) <;> cases e; exact Nat.le_refl _
  | flushBack w l =>
    simp only [Wake.client] at hc
    split_ifs at hc with hw
    cases hc
    rcases flushTest_cases s w l with e | ⟨e, hn⟩ <;> rw [e]
    · exact i.move h (by rintro ⟨⟩) (by rintro _ ⟨⟩) (by rintro _ (⟨⟨⟩⟩ | ⟨_, ⟨⟩⟩))
    · have ht := i.target w (.inr ⟨l, by rw [h]; simp⟩)
      refine i.move h (by rintro ⟨⟩) ?_ ?_
      · rintro w e; cases e; exact hn
      · rintro w (e | ⟨_, e⟩) <;> cases e; exact ht

theorem Inv.ext {killed : Bool} {s s' : St} (i : Inv s) (h : Ext killed s s') : Inv s' := by
  cases h with
  | call h hp =>
    refine i.move h (by rintro ⟨⟩) ?_ ?_
    · rintro w e
      rcases hp with ⟨k, rfl⟩ | rfl | ⟨-, rfl⟩ <;> cases e
    · rintro w (e | ⟨l, e⟩) <;> rcases hp with ⟨k, rfl⟩ | rfl | ⟨-, rfl⟩ <;> cases e
  | @late a b w h =>
    have ht := i.target w (.inl (by rw [h]; simp))
    refine i.move h (by rintro ⟨⟩) (by rintro _ ⟨⟩) ?_
    rintro w (e | ⟨_, e⟩) <;> cases e
    exact ht
  | @wake a b p h =>
    by_cases hp : ∃ w, p = .flushWait w
    · obtain ⟨w, rfl⟩ := hp
      have ht := i.target w (.inl (by rw [h]; simp))
      refine i.move h (by rintro ⟨⟩) (by rintro _ ⟨⟩) ?_
      rintro w (e | ⟨_, e⟩) <;> cases e
      exact ht
    · have : wakeFlush p = p := by cases p <;> first | rfl | exact absurd ⟨_, rfl⟩ hp
      rw [this, ← h]
      exact i
  | wakeW =>
    refine ⟨?_, ?_, ?_, ?_, ?_, i.target⟩
    · intro hw
      apply i.doze
      revert hw
      show wakeWriter s.wpc = .doze → _
      cases s.wpc <;> simp [wakeWriter]
    · intro hw
      exfalso
      revert hw
      show wakeWriter s.wpc = .asleep → _
      cases s.wpc <;> simp [wakeWriter]
    · intro hw
      apply i.busy
      revert hw
      show wakeWriter s.wpc = .sending ∨ wakeWriter s.wpc = .finish → _
      cases s.wpc <;> simp [wakeWriter]
    · intro hw
      apply i.free
      revert hw
      show (wakeWriter s.wpc = .top ∨ wakeWriter s.wpc = .lock ∨ wakeWriter s.wpc = .doze ∨ wakeWriter s.wpc = .asleep) → _
      cases s.wpc <;> simp [wakeWriter]
    · intro w hm hle
      show wakeWriter s.wpc = .top
      rw [i.woken w hm hle]
      rfl

theorem Inv.init (n : Nat) : Inv (St.init n) := by
  have h : ∀ p : CPc, p ∈ (St.init n).threads → p = .out := fun p hp => List.eq_of_mem_replicate hp
  refine ⟨by rintro ⟨⟩, by rintro ⟨⟩, by rintro (⟨⟨⟩⟩ | ⟨⟨⟩⟩), fun _ => rfl, ?_, ?_⟩
  · intro w hm
    exact absurd (h _ hm) (by rintro ⟨⟩)
  · rintro w (hm | ⟨l, hm⟩) <;> exact absurd (h _ hm) (by rintro ⟨⟩)

theorem Reach.inv {killed : Bool} {n : Nat} {o : Out St} (h : Reach killed n o) : ∃ s, o = .ok s ∧ Inv s := by
  induction h with
  | init => exact ⟨_, rfl, Inv.init n⟩
  | run h hs ih =>
    obtain ⟨s, e, i⟩ := ih
    cases e
    cases hs with
    | writer hw =>
      obtain ⟨s', rfl⟩ := i.writer_total hw
      exact ⟨_, rfl, i.writer hw⟩
    | client h hc => exact ⟨_, rfl, i.client h hc⟩
  | ext h hs ih =>
    obtain ⟨s, e, i⟩ := ih
    cases e
    exact ⟨_, rfl, i.ext hs⟩

/-! ### Coming to rest -/

def weight (N : Nat) : CPc → Nat
  | .out => 0
  | .flushWait _ => 1
  | .flush | .flushBack _ _ => 2
  | .writeNote | .killNote => 3
  | .kill => 4
  | .write _ => N + 8

def wweight (N : Nat) : WPc → Nat
  | .asleep | .stopped => 0
  | .doze => 1
  | .lock => 2
  | .top => N + 3
  | .finish => N + 4
  | .sending => N + 5

def work (N : Nat) (l : List CPc) : Nat := (l.map (weight N)).sum

/-- What the threads can still do by themselves. -/
def left (N : Nat) (s : St) : Nat := work N s.threads + wweight N s.wpc + (if s.curr = 0 then 0 else N + 4)

theorem work_mid (N : Nat) (a b : List CPc) (p : CPc) : work N (a ++ p :: b) = work N a + weight N p + work N b := by
  simp [work, Nat.add_assoc]

theorem work_wake (N : Nat) (l : List CPc) : work N (l.map wakeFlush) ≤ work N l + l.length := by
  induction l with
  | nil => exact Nat.le_refl _
  | cons p l ih =>
    have : weight N (wakeFlush p) ≤ weight N p + 1 := by cases p <;> simp [wakeFlush, weight]
    simp only [work, List.map_cons, List.sum_cons, List.length_cons] at ih ⊢
    omega

theorem wake_le (N : Nat) (w : WPc) : wweight N (wakeWriter w) ≤ wweight N w + 2 := by cases w <;> simp [wakeWriter, wweight]

theorem Run.less {s s' : St} (i : Inv s) (h : Run s (.ok s')) :
    s'.threads.length = s.threads.length ∧ left s.threads.length s' < left s.threads.length s := by
  generalize ho : Out.ok s' = o at h
  generalize hN : s.threads.length = N
  cases h with
  | @writer f _ hw =>
    subst ho
    unfold Wake.writer at hw
    cases hp : s.wpc with
    | top =>
      simp only [hp, Option.some.injEq, Out.ok.injEq] at hw
      subst hw
      refine ⟨by simpa using hN, ?_⟩
      have := work_wake N s.threads
      simp only [left, hp, wweight]
      omega
    | lock =>
      simp only [hp] at hw
      have ho := i.free (.inr (.inl hp))
      split_ifs at hw with h1 h2
      · simp only [Option.some.injEq, Out.ok.injEq] at hw
        subst hw
        refine ⟨hN, ?_⟩
        simp only [left, hp, wweight]
        omega
      · simp only [Option.some.injEq, Out.ok.injEq] at hw
        subst hw
        refine ⟨hN, ?_⟩
        simp only [left, hp, wweight]
        omega
      · have hc : 0 < s.curr := by
          rcases Nat.eq_zero_or_pos s.curr with hz | hz
          · exfalso
            cases hd : s.done
            · exact h1 ⟨hz, hd⟩
            · exact h2 ⟨hd, hz⟩
          · exact hz
        have h' : s' = { s with curr := 0, other := s.curr, wpc := .sending } := by
          simp only [ho, hc, decide_true, Out.check, Out.bind_ok, Option.some.injEq, Out.ok.injEq, if_true] at hw
          exact hw.symm
        subst h'
        refine ⟨hN, ?_⟩
        simp only [left, hp, wweight, if_true]
        rw [if_neg (show ¬ s.curr = 0 by omega)]
        omega
    | doze =>
      simp only [hp, Option.some.injEq, Out.ok.injEq] at hw
      subst hw
      refine ⟨hN, ?_⟩
      simp only [left, hp, wweight]
      omega
    | asleep => simp only [hp] at hw; cases hw
    | stopped => simp only [hp] at hw; cases hw
    | sending =>
      simp only [hp, Option.some.injEq, Out.ok.injEq] at hw
      subst hw
      refine ⟨hN, ?_⟩
      cases f <;> simp only [left, hp, wweight, if_true, if_false, Bool.false_eq_true] <;> omega
    | finish =>
      simp only [hp, Option.some.injEq, Out.ok.injEq] at hw
      subst hw
      refine ⟨hN, ?_⟩
      simp only [left, hp, wweight]
      omega
  | @client a b p p' s1 h hc =>
    cases ho
    refine ⟨by rw [← hN, h]; simp, ?_⟩
    have hw := wake_le N s.wpc
    have key : wweight N s1.wpc + (if s1.curr = 0 then 0 else N + 4) + weight N p' <
        wweight N s.wpc + (if s.curr = 0 then 0 else N + 4) + weight N p := by
      cases p with
      | out => cases hc
      | flushWait w => cases hc
      | write k =>
        simp only [Wake.client] at hc
        split_ifs at hc
        cases hc
        simp only [weight]
        split_ifs <;> omega
      | writeNote => cases hc; simp only [weight]; omega
      | killNote => cases hc; simp only [weight]; omega
      | kill => cases hc; simp only [weight]; omega
      | flush =>
        simp only [Wake.client] at hc
        split_ifs at hc
        cases hc
        rcases flushTest_cases s (flushTarget s) false with e | ⟨e, -⟩ <;> rw [e] <;> simp only [weight] <;> omega
      | flushBack w l =>
        simp only [Wake.client] at hc
        split_ifs at hc
        cases hc
        rcases flushTest_cases s w l with e | ⟨e, -⟩ <;> rw [e] <;> simp only [weight] <;> omega
    simp only [left, h, work_mid]
    omega

theorem Inv.run {s s' : St} (i : Inv s) (h : Run s (.ok s')) : Inv s' := by
  generalize ho : Out.ok s' = o at h
  cases h with
  | writer hw => subst ho; exact i.writer hw
  | client h hc => cases ho; exact i.client h hc

end Svr.Wake
