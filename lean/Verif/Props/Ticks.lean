import Verif.Env.Ticks

/-!
# C69: processor time is counted once

Between two readings of the clock the time belongs to the innermost measurement, and to no other. The specification below does not
mention the measurements' fields.
-/

namespace Svr.Props.Ticks

open Svr.Ticks

/-- Who is measured after events: counters of the measurements begun and not ended, innermost first. -/
def open_ (es : List Ev) : List (Option Nat) :=
  es.foldl (fun a e => match e with | .enter c => c :: a | .leave => a.tail) []

/-- Time between successive events in which `p` holds of who is measured, `es` having happened, the last at `last`. -/
def spent (p : List (Option Nat) → Bool) (es : List Ev) (last : UInt64) : List (Ev × UInt64) → UInt64
  | [] => 0
  | (e, now) :: r => (if p (open_ es) then now - last else 0) + spent p (es ++ [e]) now r

theorem active_eq (a : List (Option Nat)) (es : List Ev) :
    active a es = es.foldl (fun a e => match e with | .enter c => c :: a | .leave => a.tail) a := by
  induction es generalizing a with
  | nil => rfl
  | cons e es ih => cases e <;> exact ih _

theorem open_append (es : List Ev) (e : Ev) : open_ (es ++ [e]) = active (open_ es) [e] := by
  rw [active_eq, open_, open_, List.foldl_append]

theorem due_eq (i : Nat) : ∀ (r : List (Ev × UInt64)) (es : List Ev) (last : UInt64),
    due i (open_ es) last r = spent (fun a => a.head? == some (some i)) es last r
  | [], _, _ => rfl
  | (e, now) :: r, es, last => by
    rw [due, spent, ← open_append, due_eq i r]
    simp

/-- No measurement yet. -/
def fresh (f : Nat → UInt64) : St := ⟨[], f⟩

/-- **C69.** A counter grows by exactly the time in which it was the innermost one, whatever is nested in whatever, modulo 2^64. -/
theorem C69_innermost (f : Nat → UInt64) (i : Nat) (es : List (Ev × UInt64)) :
    (run (fresh f) es).counters i = f i + spent (fun a => a.head? == some (some i)) [] 0 es := by
  have := run_counters i es (s := fresh f) (a := []) (last := 0) ⟨rfl, by simp [fresh]⟩
  rw [this]
  exact congrArg (f i + ·) (due_eq i es [] 0)

/-- All counters below `n` together. -/
def total (f : Nat → UInt64) : Nat → UInt64
  | 0 => 0
  | n + 1 => total f n + f n

theorem add_swap (a b c d : UInt64) : a + b + (c + d) = a + c + (b + d) := by
  rw [UInt64.add_assoc, ← UInt64.add_assoc b, UInt64.add_comm b c, UInt64.add_assoc c, ← UInt64.add_assoc]

theorem total_add (f g : Nat → UInt64) : ∀ n, total (fun j => f j + g j) n = total f n + total g n
  | 0 => rfl
  | n + 1 => by rw [total, total_add f g n, total, total]; exact add_swap ..

theorem total_zero (n : Nat) : total (fun _ => 0) n = 0 := by
  induction n with
  | zero => rfl
  | succ n ih => rw [total, ih]; rfl

theorem total_single (i : Nat) (v : UInt64) : ∀ n, total (fun j => if i = j then v else 0) n = if i < n then v else 0
  | 0 => by simp [total]
  | n + 1 => by
    rw [total, total_single i v n]
    rcases Nat.lt_trichotomy i n with h | h | h
    · have h1 : i ≠ n := by omega
      have h2 : i < n + 1 := by omega
      simp [h, h1, h2]
    · subst h; simp
    · have h1 : i ≠ n := by omega
      have h2 : ¬ i < n := by omega
      have h3 : ¬ i < n + 1 := by omega
      simp [h1, h2, h3]

theorem total_spent (n : Nat) : ∀ (r : List (Ev × UInt64)) (es : List Ev) (last : UInt64), (∀ c e, some c ∈ open_ es ∨ (Ev.enter (some c), e) ∈ r → c < n) →
    total (fun i => spent (fun a => a.head? == some (some i)) es last r) n = spent (fun a => a.head?.any (·.isSome)) es last r
  | [], _, _, _ => total_zero n
  | (e, now) :: r, es, last, h => by
    simp only [spent]
    rw [total_add, total_spent n r (es ++ [e]) now]
    · congr 1
      cases ho : open_ es with
      | nil => simpa using total_zero n
      | cons c a =>
        cases c with
        | none => simpa using total_zero n
        | some c =>
          have := total_single c (now - last) n
          rw [if_pos (h c 0 (Or.inl (by rw [ho]; simp)))] at this
          simpa using this
    · rintro c t (hc | hc)
      · rw [open_append] at hc
        cases e with
        | leave =>
          refine h c t (Or.inl ?_)
          simp only [active] at hc
          exact List.mem_of_mem_tail hc
        | enter d =>
          simp only [active, List.mem_cons] at hc
          rcases hc with rfl | hc
          · exact h c now (Or.inr (by simp))
          · exact h c t (Or.inl hc)
      · exact h c t (Or.inr (List.mem_cons_of_mem _ hc))

/-- **C69.** No time is lost and none is counted twice: all counters together grow by the time in which the innermost measurement had a
counter. -/
theorem C69_counted_once (f : Nat → UInt64) (n : Nat) (es : List (Ev × UInt64)) (hn : ∀ c t, (Ev.enter (some c), t) ∈ es → c < n) :
    total (run (fresh f) es).counters n = total f n + spent (fun a => a.head?.any (·.isSome)) [] 0 es := by
  have : (run (fresh f) es).counters = fun i => f i + spent (fun a => a.head? == some (some i)) [] 0 es :=
    funext fun i => C69_innermost f i es
  rw [this, total_add, total_spent n es [] 0 (fun c t h => h.elim (by simp [open_]) (hn c t))]

/-- Counter 0 from 10 to 13 and from 20 to 21, counter 1 from 13 to 15 and from 18 to 20, nobody from 15 to 18. -/
example :
    let es := [(Ev.enter (some 0), 10), (.enter (some 1), 13), (.enter none, 15), (.leave, 18), (.leave, 20), (.leave, 21)]
    (run (fresh fun _ => 0) es).counters 0 = 4 ∧ (run (fresh fun _ => 0) es).counters 1 = 4 ∧
      spent (fun a => a.head?.any (·.isSome)) [] 0 es = 8 ∧ total (run (fresh fun _ => 0) es).counters 2 = 8 := by decide

end Svr.Props.Ticks
