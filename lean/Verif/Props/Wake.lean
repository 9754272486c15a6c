import Verif.WakeInv

/-!
# C81: the writing thread is woken when there is something to write
-/

namespace Svr.Props.Wake
open Svr.Wake

/-- A run of `k` steps of threads that go on by themselves. -/
inductive Runs : Nat → St → St → Prop
  | nil {s : St} : Runs 0 s s
  | cons {k : Nat} {s s' s'' : St} (h : Run s (.ok s')) (t : Runs k s' s'') : Runs (k + 1) s s''

/-- **C81.** No check of `WriteThread` fails, whatever the threads do. -/
theorem C81_checks_hold {killed : Bool} {n : Nat} {o : Out St} (h : Reach killed n o) : ∃ s, o = .ok s := by
  obtain ⟨s, e, -⟩ := h.inv
  exact ⟨s, e⟩

/-- **C81.** Without new calls the threads come to rest, after a number of steps that does not depend on their order. -/
theorem C81_comes_to_rest {killed : Bool} {n k : Nat} {s s' : St} (h : Reach killed n (.ok s)) (r : Runs k s s') :
    k ≤ (s.threads.length + 8) * s.threads.length + 2 * s.threads.length + 9 := by
  obtain ⟨_, e, i⟩ := h.inv
  cases e
  have hw : ∀ (N : Nat) (l : List CPc), work N l ≤ (N + 8) * l.length := by
    intro N l
    induction l with
    | nil => exact Nat.le_refl _
    | cons p l ih =>
      have : weight N p ≤ N + 8 := by cases p <;> simp [weight] <;> omega
      simp only [work, List.map_cons, List.sum_cons, List.length_cons] at ih ⊢
      rw [Nat.mul_succ]
      omega
  have key : k ≤ left s.threads.length s := by
    clear h
    induction r with
    | nil => exact Nat.zero_le _
    | cons h t ih =>
      obtain ⟨e, hl⟩ := h.less i
      have := ih (i.run h)
      rw [e] at this
      omega
  refine Nat.le_trans key ?_
  have h1 := hw s.threads.length s.threads
  have h2 : wweight s.threads.length s.wpc ≤ s.threads.length + 5 := by cases s.wpc <;> simp [wweight]
  unfold left
  split_ifs <;> omega

/-- **C81.** No notification is lost. When no thread can go on by itself, the writing thread has returned (`KillThread`, or an error of the
socket), or it is asleep and there is nothing left to write, and no other thread is asleep: every call of `WritePB` and
`FlushIfAble` has returned, the latter without waiting for its time-out. -/
theorem C81_no_lost_wakeup {killed : Bool} {n : Nat} {s : St} (h : Reach killed n (.ok s)) (hr : ∀ o, ¬ Run s o) :
    s.wpc = .stopped ∨ (s.wpc = .asleep ∧ s.curr = 0 ∧ s.other = 0 ∧ ∀ p ∈ s.threads, p = .out) := by
  obtain ⟨_, e, i⟩ := h.inv
  cases e
  cases hw : s.wpc with
  | stopped => exact .inl rfl
  | top => exact (hr _ (.writer (fails := false) (by unfold writer; rw [hw]))).elim
  | lock =>
    exfalso
    cases hx : writer false s with
    | some o => exact hr o (.writer hx)
    | none =>
      simp only [writer, hw] at hx
      split_ifs at hx
  | doze => exact (hr _ (.writer (fails := false) (by unfold writer; rw [hw]))).elim
  | sending => exact (hr _ (.writer (fails := false) (by unfold writer; rw [hw]))).elim
  | finish => exact (hr _ (.writer (fails := false) (by unfold writer; rw [hw]))).elim
  | asleep =>
    have hd : s.wpc ≠ .doze := by rw [hw]; rintro ⟨⟩
    have step : ∀ p ∈ s.threads, client s p = none := by
      intro p hp
      obtain ⟨a, b, e⟩ := List.append_of_mem hp
      cases hc : client s p with
      | none => rfl
      | some x => exact (hr _ (.client e hc)).elim
    have place : ∀ p ∈ s.threads, p = .out ∨ ∃ w, p = .flushWait w := by
      intro p hp
      have := step p hp
      cases p <;> simp [client, hd] at this ⊢
    have ho := i.free (.inr (.inr (.inr hw)))
    have hc : s.curr = 0 := by
      rcases i.sleep hw with hc | hm
      · exact hc
      · rcases place _ hm with e | ⟨w, e⟩ <;> cases e
    refine .inr ⟨rfl, hc, ho, ?_⟩
    intro p hp
    rcases place p hp with e | ⟨w, rfl⟩
    · exact e
    · exfalso
      have ht := i.target w (.inl hp)
      simp only [flushTarget, hc, ho, ne_eq, not_true_eq_false, if_false, Nat.add_zero] at ht
      have := i.woken w hp ht
      rw [hw] at this
      cases this

theorem alive {n : Nat} {o : Out St} (h : Reach false n o) : ∀ s, o = .ok s → s.done = false ∧ .kill ∉ s.threads := by
  have base : ∀ {o : Out St}, Reach false n o → ∀ s, o = .ok s → s.done = false ∧ .kill ∉ s.threads := by
    intro o h
    induction h with
    | init =>
      intro s e
      cases e
      refine ⟨rfl, fun hm => ?_⟩
      cases List.eq_of_mem_replicate hm
    | @run s0 o h hs ih =>
      intro s' e
      obtain ⟨h1, h2⟩ := ih _ rfl
      subst e
      generalize ho : Out.ok s' = o at hs
      cases hs with
      | @writer f _ hw =>
        subst ho
        have hmap : .kill ∉ s0.threads.map wakeFlush := by
          intro hm
          rcases (mem_wakeFlush hm).2 with hm | ⟨w, e, -⟩
          · exact h2 hm
          · cases e
        unfold writer at hw
        cases hp : s0.wpc <;> simp only [hp, h1, and_true, Bool.false_eq_true, false_and, if_false] at hw
        case top => cases hw; exact ⟨rfl, hmap⟩
        case lock =>
          split_ifs at hw with hc
          · cases hw; exact ⟨rfl, h2⟩
          · obtain ⟨_, e, i⟩ := h.inv
            cases e
            have ho := i.free (.inr (.inl hp))
            simp only [ho, Nat.pos_of_ne_zero hc, decide_true, Out.check, Out.bind_ok, if_true] at hw
            cases hw
            exact ⟨rfl, h2⟩
        case doze => cases hw; exact ⟨rfl, h2⟩
        case sending => cases hw; exact ⟨rfl, h2⟩
        case finish => cases hw; exact ⟨rfl, h2⟩
        all_goals cases hw
      | @client a b p p' s1 hth hc =>
        cases ho
        have hnk : ∀ x : CPc, x ≠ .kill → .kill ∉ a ++ x :: b := by
          intro x hx hm
          apply h2
          rw [hth]
          exact mem_swap hm hx.symm
        have hpk : p ≠ .kill := by
          rintro rfl
          apply h2
          rw [hth]
          simp
        cases p with
        | out => cases hc
        | flushWait w => cases hc
        | kill => exact absurd rfl hpk
        | write k =>
          simp only [client] at hc
          split_ifs at hc
          cases hc
          exact ⟨h1, hnk _ (by rintro ⟨⟩)⟩
        | writeNote => cases hc; exact ⟨h1, hnk _ (by rintro ⟨⟩)⟩
        | killNote => cases hc; exact ⟨h1, hnk _ (by rintro ⟨⟩)⟩
        | flush =>
          simp only [client] at hc
          split_ifs at hc
          cases hc
          refine ⟨h1, ?_⟩
          rcases flushTest_cases s0 (flushTarget s0) false with e | ⟨e, -⟩ <;> rw [e] <;> exact hnk _ (by rintro ⟨⟩)
        | flushBack w l =>
          simp only [client] at hc
          split_ifs at hc
          cases hc
          refine ⟨h1, ?_⟩
          rcases flushTest_cases s0 w l with e | ⟨e, -⟩ <;> rw [e] <;> exact hnk _ (by rintro ⟨⟩)
    | ext h hs ih =>
      intro s' e
      obtain ⟨h1, h2⟩ := ih _ rfl
      cases e
      have key : ∀ {s : St} {a b : List CPc} {p x : CPc}, s.threads = a ++ p :: b → .kill ∉ s.threads → x ≠ .kill → .kill ∉ a ++ x :: b := by
        intro s a b p x hth hk hx hm
        apply hk
        rw [hth]
        exact mem_swap hm hx.symm
      cases hs with
      | @call a b p hth hp =>
        refine ⟨h1, key hth h2 ?_⟩
        rcases hp with ⟨k, rfl⟩ | rfl | ⟨hk, -⟩
        · rintro ⟨⟩
        · rintro ⟨⟩
        · cases hk
      | late hth => exact ⟨h1, key hth h2 (by rintro ⟨⟩)⟩
      | @wake a b p hth =>
        refine ⟨h1, key hth h2 ?_⟩
        have : p ≠ .kill := by
          rintro rfl
          apply h2
          rw [hth]
          simp
        cases p <;> first | exact absurd rfl this | rintro ⟨⟩
      | wakeW => exact ⟨h1, h2⟩
  exact base h

/-- **C81.** As long as nobody calls `KillThread`, only an error of the socket makes the writing thread return. -/
theorem C81_returns_only_on_errors {n : Nat} {s s' : St} (h : Reach false n (.ok s)) (hw : s.wpc ≠ .stopped)
    (hs : Run s (.ok s')) (hs' : s'.wpc = .stopped) : s.wpc = .sending ∧ writer true s = some (.ok s') := by
  obtain ⟨h1, -⟩ := alive h s rfl
  generalize ho : Out.ok s' = o at hs
  cases hs with
  | @client a b p p' s1 hth hc =>
    cases ho
    exfalso
    have : s1.wpc = .stopped := hs'
    cases p with
    | out => cases hc
    | flushWait w => cases hc
    | kill => cases hc; exact hw this
    | write k =>
      simp only [client] at hc
      split_ifs at hc
      cases hc
      exact hw this
    | writeNote => cases hc; revert this hw; cases s.wpc <;> simp [wakeWriter]
    | killNote => cases hc; revert this hw; cases s.wpc <;> simp [wakeWriter]
    | flush =>
      simp only [client] at hc
      split_ifs at hc
      cases hc
      exact hw this
    | flushBack w l =>
      simp only [client] at hc
      split_ifs at hc
      cases hc
      exact hw this
  | @writer f _ hx =>
    subst ho
    have hx0 := hx
    unfold writer at hx
    cases hp : s.wpc <;> simp only [hp, h1, and_true, Bool.false_eq_true, false_and, if_false] at hx
    case top => cases hx; cases hs'
    case lock =>
      split_ifs at hx with hc
      · cases hx; cases hs'
      · obtain ⟨_, e, i⟩ := h.inv
        cases e
        have ho := i.free (.inr (.inl hp))
        simp only [ho, Nat.pos_of_ne_zero hc, decide_true, Out.check, Out.bind_ok, if_true] at hx
        cases hx
        cases hs'
    case doze => cases hx; cases hs'
    case sending =>
      cases f
      · cases hx; cases hs'
      · exact ⟨rfl, hx0⟩
    case finish => cases hx; cases hs'
    all_goals cases hx

/-- `KillThread` stores `done_` and notifies without `mu_`: if it does so when the writing thread has read `done_` and does not sleep yet,
the notification is lost and the thread sleeps for good. (`KillThread` exists for tests only.) -/
theorem C81_kill_may_be_lost : ∃ s, Reach true 1 (.ok s) ∧ s.done = true ∧ s.wpc = .asleep ∧ ∀ o, ¬ Run s o := by
  have r0 : Reach true 1 (.ok (St.init 1)) := .init
  have r1 := r0.run (.writer (fails := false) rfl)
  have r2 := r1.run (.writer (fails := false) rfl)
  have r3 := r2.ext (.call (a := []) (b := []) (p := .kill) rfl (.inr (.inr ⟨rfl, rfl⟩)))
  have r4 := r3.run (.client (a := []) (b := []) rfl rfl)
  have r5 := r4.run (.client (a := []) (b := []) rfl rfl)
  have r6 := r5.run (.writer (fails := false) rfl)
  refine ⟨_, r6, rfl, rfl, ?_⟩
  intro o h
  cases h with
  | writer h => cases h
  | @client a b p p' s1 hth hc =>
    have : p ∈ [CPc.out] := by
      have : p ∈ a ++ p :: b := by simp
      rw [← hth] at this
      exact this
    rw [List.mem_singleton] at this
    subst this
    cases hc

/-! ### Example: a message is written, and a call of `FlushIfAble` waits for it and is woken -/

example : ∃ s, Reach false 2 (.ok s) ∧ s.wpc = .asleep ∧ s.writes = 1 ∧ s.threads = [.out, .out] := by
  have r0 : Reach false 2 (.ok (St.init 2)) := .init
  have r1 := r0.run (.writer (fails := false) rfl)
  have r2 := r1.run (.writer (fails := false) rfl)
  have r3 := r2.run (.writer (fails := false) rfl)
  have r4 := r3.ext (.call (a := []) (b := [.out]) (p := .write 10) rfl (.inl ⟨10, rfl⟩))
  have r5 := r4.run (.client (a := []) (b := [.out]) rfl rfl)
  have r6 := r5.run (.client (a := []) (b := [.out]) rfl rfl)
  have r7 := r6.ext (.call (a := [.out]) (b := []) (p := .flush) rfl (.inr (.inl rfl)))
  have r8 := r7.run (.client (a := [.out]) (b := []) rfl rfl)
  have r9 := r8.run (.writer (fails := false) rfl)
  have r10 := r9.run (.writer (fails := false) rfl)
  have r11 := r10.run (.writer (fails := false) rfl)
  have r12 := r11.run (.writer (fails := false) rfl)
  have r13 := r12.run (.client (a := [.out]) (b := []) rfl rfl)
  have r14 := r13.run (.writer (fails := false) rfl)
  have r15 := r14.run (.writer (fails := false) rfl)
  exact ⟨_, r15, rfl, rfl, rfl⟩

end Svr.Props.Wake
