import Verif.QueueInv

/-!
# C80: the queue between threads

What is put into the queue comes out once and in order, the queue never holds more than it may, and no thread is left asleep
that could go on. The counter of `Flush` is not initialised.
-/

namespace Svr.Props.Queue
open Svr.Queue
variable {T : Type}

/-- **C80.** Whatever the threads do, what was put in is what was taken out followed by what is in the queue, so that elements
come out once and in the order in which they went in, and there are never more than `max`. A call of `Pop` that has returned
has returned what it took out. -/
theorem C80_first_in_first_out {max n : Nat} {st : Bool} {s : St T} (h : Reach max st n (.ok s)) :
    s.ins.map (·.2) = s.outs.map (·.2) ++ s.q.d ∧ s.q.d.length ≤ max ∧
    ∀ i v, s.threads[i]? = some (.out (.got v)) → ((s.outs.filter fun x => decide (x.1 = i)).getLast?).map (·.2) = some v :=
  ⟨(h.kept s rfl).fifo, (h.awake s rfl).room, fun i v hi => (h.kept s rfl).mine i v (.inr hi)⟩

/-- A run of `k` steps of threads that go on by themselves. -/
inductive Runs (max : Nat) : Nat → St T → St T → Prop
  | nil {s : St T} : Runs max 0 s s
  | cons {k : Nat} {s s' s'' : St T} (h : Run max s (.ok s')) (t : Runs max k s' s'') : Runs max (k + 1) s s''

/-- **C80.** Without new calls, the threads come to rest, after a number of steps that does not depend on their order. -/
theorem C80_comes_to_rest {max k : Nat} {s s' : St T} (h : Runs max k s s') : k ≤ (s.threads.length + 3) * s.threads.length := by
  have hw : ∀ (N : Nat) (l : List (Pc T)), work N l ≤ (N + 3) * l.length := by
    intro N l
    induction l with
    | nil => exact Nat.le_refl _
    | cons p l ih =>
      have : weight N p ≤ N + 3 := by cases p <;> simp [weight]
      simp only [work, List.map_cons, List.sum_cons, List.length_cons] at ih ⊢
      rw [Nat.mul_succ]
      omega
  have key : k ≤ work s.threads.length s.threads := by
    induction h with
    | nil => exact Nat.zero_le _
    | cons h t ih =>
      obtain ⟨e, hl⟩ := h.less
      rw [e] at ih
      omega
  exact Nat.le_trans key (hw _ _)

/-- **C80.** No notification is lost. When no thread can go on by itself, a thread asleep in `Pop` found the queue empty and it is
empty, a thread asleep in `Push` found it full and it is full, and one asleep in `Flush` waits for elements that are still there.
In particular `Push` and `Pop` are never both asleep, unless the queue may hold nothing. -/
theorem C80_no_lost_wakeup {max n : Nat} {st : Bool} {s : St T} (h : Reach max st n (.ok s)) (hr : ∀ o, ¬ Run max s o) :
    (.popWait ∈ s.threads → s.q.d = []) ∧ (∀ v, .pushWait v ∈ s.threads → s.q.d.length = max) ∧
    (∀ w c, .flushWait w ∈ s.threads → s.q.popped = some c → c < w) ∧
    (∀ v, .popWait ∈ s.threads → .pushWait v ∈ s.threads → max = 0) := by
  have a := h.awake s rfl
  have rest := (rest_iff (max := max)).mpr hr
  have nonote : ∀ u, Pc.popNote u ∉ s.threads := by
    intro u hu
    rcases rest _ hu with ⟨r, e⟩ | e | ⟨v, e⟩ | ⟨w, e⟩ <;> cases e
  have h1 : Pc.popWait ∈ s.threads → s.q.d = [] := by
    intro hm
    have := a.pop hm
    have c1 : s.threads.countP isPop = 0 := by
      rw [List.countP_eq_zero]
      intro p hp
      rcases rest _ hp with ⟨r, rfl⟩ | rfl | ⟨v, rfl⟩ | ⟨w, rfl⟩ <;> simp [isPop]
    have c2 : s.threads.countP isPushNote = 0 := by
      rw [List.countP_eq_zero]
      intro p hp
      rcases rest _ hp with ⟨r, rfl⟩ | rfl | ⟨v, rfl⟩ | ⟨w, rfl⟩ <;> simp [isPushNote]
    exact List.length_eq_zero_iff.mp (by omega)
  have h2 : ∀ v, Pc.pushWait v ∈ s.threads → s.q.d.length = max := by
    intro v hm
    by_contra hne
    have := a.room
    obtain ⟨u, hu⟩ := a.push v hm (by omega)
    exact nonote u hu
  refine ⟨h1, h2, ?_, ?_⟩
  · intro w c hm hc
    by_contra hlt
    obtain ⟨u, hu⟩ := a.flush w c hm hc (UInt64.not_lt.mp hlt)
    exact nonote u hu
  · intro v hp hm
    rw [← h2 v hm, h1 hp]
    rfl

/-- **C80, partial.** A queue with static storage has no undefined behaviour. Its `Flush` remembers how many elements were put in before
it, and returns true exactly when as many have been taken out, if there are fewer than `2^64`. Missing: other queues, whose counter is
not initialised (`C80_uninitialised`). -/
theorem C80_flush_partial {max n : Nat} {o : Out (St T)} (h : Reach max true n o) :
    ∃ s, o = .ok s ∧ (s.ins.length < 2 ^ 64 →
      (locked max s.q .flush = some (.ok (s.q, if s.q.d = [] then .out (.flushed true) else .flushWait (UInt64.ofNat s.ins.length)))) ∧
      ∀ w late, locked max s.q (.flushBack w late) = some (.ok (s.q,
        if w.toNat ≤ s.outs.length then .out (.flushed true) else if late then .out (.flushed false) else .flushWait w))) := by
  obtain ⟨s, rfl, hp⟩ := h.static rfl
  refine ⟨s, rfl, ?_⟩
  intro hlt
  have hf := congrArg List.length (h.kept s rfl).fifo
  simp only [List.length_map, List.length_append] at hf
  have hto : ∀ k, k ≤ s.ins.length → (UInt64.ofNat k).toNat = k := by
    intro k hk
    rw [UInt64.toNat_ofNat']
    exact Nat.mod_eq_of_lt (by omega)
  have hsum : UInt64.ofNat s.outs.length + UInt64.ofNat s.q.d.length = UInt64.ofNat s.ins.length := by
    apply UInt64.toNat_inj.mp
    rw [UInt64.toNat_add, hto _ (by omega), hto _ (by omega), hto _ (Nat.le_refl _), Nat.mod_eq_of_lt (by omega)]
    omega
  constructor
  · simp only [locked, lockFlush, flushTest, hp, hsum]
    have : (UInt64.ofNat s.outs.length ≥ UInt64.ofNat s.ins.length) ↔ s.q.d = [] := by
      show UInt64.ofNat s.ins.length ≤ UInt64.ofNat s.outs.length ↔ _
      rw [UInt64.le_iff_toNat_le, hto _ (Nat.le_refl _), hto _ (by omega), ← List.length_eq_zero_iff]
      omega
    simp only [this]
    rfl
  · intro w late
    simp only [locked, flushTest, hp]
    have : (UInt64.ofNat s.outs.length ≥ w) ↔ w.toNat ≤ s.outs.length := by
      show w ≤ UInt64.ofNat s.outs.length ↔ _
      rw [UInt64.le_iff_toNat_le, hto _ (by omega)]
    simp only [this]
    rfl

/-- **C80 is false of the code as it stands**: in a queue without static storage `popped_` is never written before it is read, so that no
call of `Pop` or `Flush` returns: taking out an element, and every call of `Flush`, is undefined behaviour. -/
theorem C80_uninitialised {max n : Nat} {s : St T} (h : Reach max false n (.ok s)) :
    s.outs = [] ∧ (s.q.d ≠ [] → locked max s.q .pop = some .ub) ∧ locked max s.q .flush = some .ub := by
  obtain ⟨h1, h2⟩ := h.uninit rfl s rfl
  refine ⟨h2, ?_, ?_⟩
  · intro hd
    cases hq : s.q.d with
    | nil => exact absurd hq hd
    | cons v r => simp [locked, lockPop, hq, h1]
  · simp only [locked, lockFlush, h1]
    rfl

/-- If the memory happens to hold the largest number, `Flush` says that all was taken out though nothing was. -/
theorem C80_flush_at_the_end_of_the_counter (v : T) :
    lockFlush ⟨[v], some (UInt64.ofNat (2 ^ 64 - 1))⟩ = .ok (.out (.flushed true)) := by
  simp only [lockFlush, flushTest, List.length_singleton]
  rfl

/-! ### Examples -/

/-- Two threads and room for one element: the second `Push` waits for the `Pop`. -/
theorem played : ∃ s : St Nat, Reach 1 true 3 (.ok s) ∧ s.ins = [(0, 7), (1, 8)] ∧ s.outs = [(2, 7)] ∧
    s.threads = [.out .void, .out .void, .out (.got 7)] ∧ s.q.d = [8] := by
  have r0 : Reach 1 true 3 (.ok (St.init Nat true 3)) := .init
  have r1 := r0.step (.ext (.call (a := []) (b := [.out .void, .out .void]) (r := .void) (p := .push 7) rfl (.inl ⟨7, rfl⟩)))
  have r2 := r1.step (.run (.lock (a := []) (b := [.out .void, .out .void]) (p := .push 7) rfl rfl))
  have r3 := r2.step (.ext (.call (a := [.pushNote]) (b := [.out .void]) (r := .void) (p := .push 8) rfl (.inl ⟨8, rfl⟩)))
  have r4 := r3.step (.run (.lock (a := [.pushNote]) (b := [.out .void]) (p := .push 8) rfl rfl))
  have r5 := r4.step (.run (.noteNone (a := []) (b := [.pushWait 8, .out .void]) rfl (by simp)))
  have r6 := r5.step (.ext (.call (a := [.out .void, .pushWait 8]) (b := []) (r := .void) (p := .pop) rfl (.inr (.inl rfl))))
  have r7 := r6.step (.run (.lock (a := [.out .void, .pushWait 8]) (b := []) (p := .pop) rfl rfl))
  have r8 := r7.step (.run (.noteAll (a := [.out .void, .pushWait 8]) (b := []) (v := 7) rfl))
  have r9 := r8.step (.run (.lock (a := [.out .void]) (b := [.out (.got 7)]) (p := .push 8) rfl rfl))
  have r10 := r9.step (.run (.noteNone (a := [.out .void]) (b := [.out (.got 7)]) rfl (by simp)))
  exact ⟨_, r10, rfl, rfl, rfl, rfl⟩

example : ∃ s : St Nat, Reach 1 true 3 (.ok s) ∧ s.ins.map (·.2) = s.outs.map (·.2) ++ s.q.d ∧ s.outs ≠ [] ∧ s.q.d ≠ [] := by
  obtain ⟨s, hr, h1, h2, -, h4⟩ := played
  exact ⟨s, hr, (C80_first_in_first_out hr).1, by rw [h2]; simp, by rw [h4]; simp⟩

/-- A state at rest with a thread asleep in `Pop`. -/
example : ∃ s : St Nat, Reach 1 true 1 (.ok s) ∧ (∀ o, ¬ Run 1 s o) ∧ .popWait ∈ s.threads := by
  have r0 : Reach 1 true 1 (.ok (St.init Nat true 1)) := .init
  have r1 := r0.step (.ext (.call (a := []) (b := []) (r := .void) (p := .pop) rfl (.inr (.inl rfl))))
  have r2 := r1.step (.run (.lock (a := []) (b := []) (p := .pop) rfl rfl))
  refine ⟨_, r2, rest_iff.mp ?_, by simp⟩
  intro p hp
  simp only [List.nil_append, List.mem_singleton] at hp
  exact .inr (.inl hp)

/-- A queue on the stack with an element in it: the next `Pop` is undefined behaviour. -/
example : Reach (T := Nat) 1 false 2 .ub := by
  have r0 : Reach 1 false 2 (.ok (St.init Nat false 2)) := .init
  have r1 := r0.step (.ext (.call (a := []) (b := [.out .void]) (r := .void) (p := .push 7) rfl (.inl ⟨7, rfl⟩)))
  have r2 := r1.step (.run (.lock (a := []) (b := [.out .void]) (p := .push 7) rfl rfl))
  have r3 := r2.step (.ext (.call (a := [.pushNote]) (b := []) (r := .void) (p := .pop) rfl (.inr (.inl rfl))))
  exact r3.step (.run (.bad (a := [.pushNote]) (b := []) (p := .pop) rfl rfl))

end Svr.Props.Queue
