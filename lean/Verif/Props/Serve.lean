import Verif.Env.Serve

/-!
# C71: serving messages off SGX

The process takes the first connection that says `N`, whatever connections were closed before without a word; every message it reads
is given to the core once and answered once with its number; messages are taken in order.
-/

namespace Svr.Props.Serve

open Svr.Serve

/-- A connection to be passed over: a health check, or an accept that was interrupted. -/
def Passes (c : Came) : Prop := c = .conn (some none) ∨ c = .interrupted

/-- The byte `N`. -/
def hello : UInt8 := 78

/-- **C71 (accepting).** With health checks only, the connection taken is the first that is not one, and it says hello. -/
theorem C71_accept_partial (cs : List Came) (n : Nat) : accept cs = some (some n) ↔
    cs[n]? = some (.conn (some (some hello))) ∧ ∀ k < n, cs[k]? = some (.conn (some none)) := by
  induction cs generalizing n with
  | nil => simp [accept]
  | cons c cs ih =>
    have other : ∀ {c : Came}, c ≠ .conn (some none) → c ≠ .conn (some (some hello)) →
        ((c :: cs)[n]? = some (.conn (some (some hello))) ∧ ∀ k < n, (c :: cs)[k]? = some (.conn (some none))) → False := by
      rintro c h1 h2 ⟨h3, h4⟩
      cases n with
      | zero => simp at h3; exact h2 h3
      | succ n => have := h4 0 (by omega); simp at this; exact h1 this
    cases c with
    | interrupted => simp only [accept]; exact ⟨(fun h => by cases h), fun h => (other (by simp) (by simp) h).elim⟩
    | failed => simp only [accept]; exact ⟨(fun h => by cases h), fun h => (other (by simp) (by simp) h).elim⟩
    | conn f =>
      cases f with
      | none => simp only [accept]; exact ⟨(fun h => by cases h), fun h => (other (by simp) (by simp) h).elim⟩
      | some f =>
        cases f with
        | none =>
          cases n with
          | zero =>
            simp only [accept]
            cases accept cs with
            | none => simp
            | some x => cases x <;> simp
          | succ n =>
            have e : accept (.conn (some none) :: cs) = some (some (n + 1)) ↔ accept cs = some (some n) := by
              simp only [accept]
              cases accept cs with
              | none => simp
              | some x => cases x <;> simp
            rw [e, ih n]
            simp only [List.getElem?_cons_succ]
            refine and_congr_right fun _ => ⟨fun h k hk => ?_, fun h k hk => ?_⟩
            · cases k with
              | zero => rfl
              | succ k => exact h k (by omega)
            · have := h (k + 1) (by omega)
              simpa using this
        | some b =>
          have hN : 'N'.toNat.toUInt8 = hello := by decide
          simp only [accept, hN]
          by_cases hb : b = hello
          · subst hb
            rw [if_pos rfl]
            constructor
            · intro h
              cases h
              exact ⟨rfl, fun k hk => by omega⟩
            · rintro ⟨h1, h2⟩
              cases n with
              | zero => rfl
              | succ n => have := h2 0 (by omega); simp at this
          · rw [if_neg hb]
            exact ⟨(fun h => by cases h), fun h => (other (by simp) (by simpa using hb) h).elim⟩

/-- **C71 is false of interrupted accepts**: though line 87 lets them pass, `recv` is then called with the descriptor -1 and its error ends
the process, while a client is connecting. -/
theorem C71_accept_interrupted_false : ∃ cs : List Came, (∀ k < 1, ∃ c, cs[k]? = some c ∧ Passes c) ∧
    cs[1]? = some (.conn (some (some hello))) ∧ accept cs = some none :=
  ⟨[.interrupted, .conn (some (some hello))], fun k hk => ⟨.interrupted, by
    have : k = 0 := by omega
    subst this; rfl, Or.inr rfl⟩, rfl, rfl⟩

example : accept [.conn (some none), .conn (some none), .conn (some (some 78)), .failed] = some (some 2) := by decide

/-- **C71 (serving).** As long as the process lives: what has been read is a sequence of messages at the beginning of the inbox; the core was
given each of them once, in order; those answered and those in the hands of threads, at most 32, are together exactly those
read, each once, and answers have their numbers. -/
theorem C71_answered_once {M : Type} {inbox : List (In M)} {good : Bool} {s s' : St M} (h0 : start inbox good = .ok s)
    {es : List (Nat × Nat)} (h : run s es = .ok s') : ∃ (level : Int) (read : List (Nat × M)),
      inbox = .init level :: read.map (fun x => In.msg x.1 x.2) ++ s'.inbox ∧ s'.called = read.map (·.2) ∧
      (busy s').length ≤ 32 ∧ (read.map (·.1)).Perm (s'.out.map (·.1) ++ (busy s').map (·.1)) := by
  unfold start at h0
  split at h0
  · rename_i level r
    split at h0
    · cases h0
      obtain ⟨read, i⟩ := inv_run es (all := r) (read := []) ⟨rfl, rfl, by simp only; split <;> simp,
        by simp only [busy]; split <;> simp⟩ h
      exact ⟨level, read, by simp [i.split], i.called, (List.length_filterMap_le _ _).trans i.size, i.perm⟩
    · cases h0
  · cases h0

/-- **C71 (serving), part.** With a log level at which fatal lines are written, 32 threads wait for messages: whichever of them comes next to its turn
takes the next one. -/
theorem C71_served_partial {M : Type} {inbox : List (In M)} {level : Int} {r : List (In M)} (hi : inbox = .init level :: r) (logs : 0 ≤ level) :
    ∃ s, start inbox true = .ok s ∧ s.inbox = r ∧ s.threads.length = 32 ∧ ∀ t < 32, ∀ st id m r', r = .msg id m :: r' →
      ∃ s', step s t st = .ok s' ∧ s'.inbox = r' ∧ s'.called = [m] := by
  subst hi
  have hl : Log.fatalLevel ≤ Log.atInit Log.first level := by
    unfold Log.fatalLevel Log.atInit Log.first
    split <;> omega
  have hs : start (.init level :: r) true = .ok ⟨r, List.replicate 32 none, [], []⟩ := by simp only [start, if_pos hl, if_true]
  refine ⟨_, hs, rfl, by simp, ?_⟩
  rintro t ht st id m r' rfl
  exact ⟨⟨r', (List.replicate 32 none).set t (some (id, m)), [] ++ [m], []⟩, by simp only [step, List.getElem?_replicate, if_pos ht], rfl, rfl⟩

/-- **C71 (serving) is false of negative log levels**: with such a level in the init message the process starts, but nothing that is then sent to it is
ever read. -/
theorem C71_served_false {M : Type} (r : List (In M)) (level : Int) (h : level < 0) : ∃ s, start (.init level :: r) true = .ok s ∧
    ∀ es, run s es = .ok s ∧ s.inbox = r ∧ s.called = [] := by
  have hl : ¬ Log.fatalLevel ≤ Log.atInit Log.first level := by
    unfold Log.fatalLevel Log.atInit Log.first
    split <;> omega
  have hs : start (.init level :: r) true = .ok ⟨r, [], [], []⟩ := by simp only [start, if_neg hl, if_true]
  refine ⟨_, hs, fun es => ⟨?_, rfl, rfl⟩⟩
  induction es with
  | nil => rfl
  | cons e es ih => exact ih

/-- **C71.** The process dies exactly when a thread reads what is not a message, or when it does not begin with an init message with
which a core can be made; there is no undefined behaviour. -/
theorem C71_dies {M : Type} (inbox : List (In M)) (good : Bool) (s : St M) (t st : Nat) :
    (start inbox good = .abort ↔ ¬ (inbox.head?.any (fun x => x matches .init _) = true ∧ good = true)) ∧
      (step s t st = .abort ↔ s.threads[t]? = some none ∧ ∃ x r, s.inbox = x :: r ∧ ∀ id m, x ≠ .msg id m) ∧
      step s t st ≠ .ub := by
  refine ⟨?_, ?_, step_no_ub s t st⟩
  · unfold start
    split
    · cases good <;> simp
    · rename_i h
      cases inbox with
      | nil => simp
      | cons x r => cases x <;> simp_all
  · rw [step_abort]
    have e : ∀ x : In M, x.asMsg = none ↔ ∀ id m, x ≠ .msg id m := fun x => by cases x <;> simp [In.asMsg]
    simp only [e]

/-- Three threads, three messages: the second is answered first, the third not yet. -/
example : ∃ s, start [.init 0, .msg 7 'a', .msg 8 'b', .msg 9 'c'] true = .ok s ∧ ∃ s', run s [(0, 0), (1, 0), (1, 5), (0, 0), (4, 0)] = .ok s' ∧
    s'.out = [(8, 5), (7, 0)] ∧ s'.called = ['a', 'b', 'c'] ∧ busy s' = [(9, 'c')] :=
  ⟨_, rfl, _, rfl, rfl, rfl, rfl⟩

end Svr.Props.Serve
