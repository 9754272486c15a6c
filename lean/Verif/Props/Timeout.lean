import Verif.Timeout

/-!
# C43: timeouts fire exactly once at the right tick
-/

namespace Svr.Props.Timeout
open Svr.Timeout
variable {F : Type}

/-- Specification: the registration `tc` is cancelled before the `k`-th tick of the sequence. -/
def cancelledBefore (tc : Cancel) : Nat → List (Op F) → Bool
  | _, [] => false
  | k, .set _ _ :: os => cancelledBefore tc k os
  | k, .cancel c :: os => if c = tc then true else cancelledBefore tc k os
  | k, .tick :: os => if k ≤ 1 then false else cancelledBefore tc (k - 1) os

/-- Callbacks with id `g` run by one tick. -/
def runsOf (g : Int) (o : List (Int × F)) : List (Int × F) := o.filter (fun p => p.1 = g)

theorem pending_fires (tc : Cancel) (f : F) : ∀ (os : List (Op F)) (s s' : St F) (outs : List (List (Int × F))) (k : Nat),
    tc.cancelId ≤ s.gen → (∀ t, look s t tc.cancelId = if t = tc.atTick then some f else none) →
    tc.atTick = s.ticks + k → 1 ≤ k → run s os = .ok (s', outs) →
    ∀ j o, outs[j]? = some o →
      runsOf tc.cancelId o = if j + 1 = k ∧ cancelledBefore tc k os = false then [(tc.cancelId, f)] else [] := by
  intro os
  induction os with
  | nil =>
    intro s s' outs k _ _ _ _ h
    simp only [run, Out.ok.injEq, Prod.mk.injEq] at h
    rw [← h.2]
    intro j o ho
    simp at ho
  | cons x os ih =>
    intro s s' outs k hg hl hat hk h
    obtain ⟨s1, out, outs', h1, h2, rfl⟩ := run_cons h
    cases x with
    | set n f' =>
      simp only [step] at h1
      obtain ⟨⟨s2, tc'⟩, h3, h4⟩ := Out.bind_eq_ok.mp h1
      simp only [Out.pure_eq, Out.ok.injEq, Prod.mk.injEq] at h4
      obtain ⟨rfl, rfl⟩ := h4
      obtain ⟨e1, e2, e3, e4⟩ := set_spec h3
      refine ih s2 s' outs' k (by omega) ?_ (by omega) hk h2
      intro t
      rw [e4, if_neg]
      · exact hl t
      · rintro ⟨_, hx⟩
        rw [e3] at hx
        simp only at hx
        omega
    | cancel c =>
      simp only [step, Out.pure_eq, Out.ok.injEq, Prod.mk.injEq] at h1
      obtain ⟨rfl, rfl⟩ := h1
      obtain ⟨e1, e2, e3⟩ := cancel_spec s c
      by_cases hc : c = tc
      · subst hc
        have hn : ∀ t, look (cancelTimeout s c) t c.cancelId = none := by
          intro t
          rw [e3]
          split
          · rfl
          · rename_i hne
            rw [hl, if_neg (fun e => hne ⟨e, rfl⟩)]
        have := never (by omega) hn h2
        intro j o ho
        simp only [cancelledBefore, if_true, Bool.true_eq_false, and_false, if_false]
        simp only [Option.toList_none, List.nil_append] at ho
        exact this o (List.mem_of_getElem? ho)
      · simp only [cancelledBefore, if_neg hc]
        refine ih _ s' outs' k (by omega) ?_ (by omega) hk h2
        intro t
        rw [e3]
        split
        · rename_i he
          have : t ≠ tc.atTick := by
            intro e
            apply hc
            obtain ⟨a, b⟩ := c
            obtain ⟨a', b'⟩ := tc
            simp only at he e
            simp only [Cancel.mk.injEq]
            exact ⟨he.1.symm.trans e, he.2.symm⟩
          rw [if_neg this]
        · exact hl t
    | tick =>
      simp only [step] at h1
      obtain ⟨⟨s2, l⟩, h3, h4⟩ := Out.bind_eq_ok.mp h1
      simp only [Out.pure_eq, Out.ok.injEq, Prod.mk.injEq] at h4
      obtain ⟨rfl, rfl⟩ := h4
      obtain ⟨e1, e2, e3, e4⟩ := tick_spec h3
      simp only [Option.toList_some, List.singleton_append]
      by_cases hk1 : k = 1
      · subst hk1
        have hn : ∀ t, look s2 t tc.cancelId = none := by
          intro t
          rw [e3]
          split
          · rfl
          · rename_i hne
            rw [hl, if_neg (by omega)]
        have := never (by omega) hn h2
        intro j o ho
        cases j with
        | zero =>
          simp only [List.getElem?_cons_zero, Option.some.injEq] at ho
          subst ho
          simp only [cancelledBefore, Nat.le_refl, if_true, and_self, Nat.zero_add]
          show l.filter _ = _
          rw [e4, hl, if_pos (by omega)]
          rfl
        | succ j =>
          simp only [List.getElem?_cons_succ] at ho
          rw [if_neg (by omega)]
          exact this o (List.mem_of_getElem? ho)
      · have hrec := ih s2 s' outs' (k - 1) (by omega) (by
            intro t
            rw [e3, hl]
            by_cases ht : t = s.ticks + 1
            · rw [if_pos ht, if_neg (by omega)]
            · rw [if_neg ht]) (by omega) (by omega) h2
        intro j o ho
        cases j with
        | zero =>
          simp only [List.getElem?_cons_zero, Option.some.injEq] at ho
          subst ho
          rw [if_neg (by omega)]
          show l.filter _ = _
          rw [e4, hl, if_neg (by omega)]
          rfl
        | succ j =>
          simp only [List.getElem?_cons_succ] at ho
          rw [hrec j o ho]
          have e : cancelledBefore tc k (.tick :: os) = cancelledBefore tc (k - 1) os := by
            simp only [cancelledBefore]
            rw [if_neg (show ¬ k ≤ 1 by omega)]
          have : (j + 1 = k - 1) ↔ (j + 1 + 1 = k) := by omega
          simp only [e, this]

/-- **C43**: in any sequence of calls (without signed overflow), a callback `f` registered for `n` ticks
gets a fresh id and is run by the `max(1,n)`-th tick after its registration, once, and by no other tick,
unless its token is cancelled before that tick, in which case no tick runs it. -/
theorem C43_fires_exactly_once (n : Int) (f : F) (pre post : List (Op F)) (s' : St F)
    (outs : List (List (Int × F))) (h : run (init F) (pre ++ .set n f :: post) = .ok (s', outs)) :
    ∃ s1 outs1 s2 tc outs2, run (init F) pre = .ok (s1, outs1) ∧ setTimeout s1 n f = .ok (s2, tc) ∧
      run s2 post = .ok (s', outs2) ∧ outs = outs1 ++ outs2 ∧
      (∀ o ∈ outs1, runsOf tc.cancelId o = []) ∧
      (∀ j o, outs2[j]? = some o → runsOf tc.cancelId o =
        if j + 1 = (max 1 n).toNat ∧ cancelledBefore tc (max 1 n).toNat post = false then [(tc.cancelId, f)] else []) := by
  obtain ⟨s1, o1, o2, h1, h2, rfl⟩ := run_append h
  obtain ⟨s2, out, outs', h3, h4, rfl⟩ := run_cons h2
  simp only [step] at h3
  obtain ⟨⟨s3, tc⟩, h5, h6⟩ := Out.bind_eq_ok.mp h3
  simp only [Out.pure_eq, Out.ok.injEq, Prod.mk.injEq] at h6
  obtain ⟨rfl, rfl⟩ := h6
  have hi := run_inv inv_init h1
  obtain ⟨e1, e2, e3, e4⟩ := set_spec h5
  refine ⟨s1, o1, s3, tc, outs', h1, h5, h4, by simp, ?_, ?_⟩
  · -- ids run before are older
    have old : ∀ (os : List (Op F)) (s t : St F) (outs), Inv s → run s os = .ok (t, outs) →
        s.gen ≤ t.gen ∧ ∀ o ∈ outs, ∀ p ∈ o, p.1 ≤ t.gen := by
      intro os
      induction os with
      | nil =>
        intro s t outs _ h
        simp only [run, Out.ok.injEq, Prod.mk.injEq] at h
        rw [← h.1, ← h.2]; simp
      | cons x os ih =>
        intro s t outs hi h
        obtain ⟨sa, out, outs', ha, hb, rfl⟩ := run_cons h
        have hstep := step_inv hi ha
        obtain ⟨g1, g2⟩ := ih sa t outs' hstep.1 hb
        refine ⟨by omega, ?_⟩
        intro o ho p hp
        rcases List.mem_append.mp ho with ho | ho
        · cases x with
          | set n f =>
            simp only [step] at ha
            obtain ⟨q, _, hq⟩ := Out.bind_eq_ok.mp ha
            simp only [Out.pure_eq, Out.ok.injEq, Prod.mk.injEq] at hq
            rw [← hq.2] at ho; simp at ho
          | cancel c =>
            simp only [step, Out.pure_eq, Out.ok.injEq, Prod.mk.injEq] at ha
            rw [← ha.2] at ho; simp at ho
          | tick =>
            simp only [step] at ha
            obtain ⟨⟨sb, l⟩, hl, hq⟩ := Out.bind_eq_ok.mp ha
            simp only [Out.pure_eq, Out.ok.injEq, Prod.mk.injEq] at hq
            rw [← hq.2] at ho
            simp only [Option.toList_some, List.mem_singleton] at ho
            subst ho
            obtain ⟨_, _, _, e4⟩ := tick_spec hl
            have := e4 p.1
            have hpm : p ∈ o.filter (fun q => q.1 = p.1) := by simp [hp]
            rw [this] at hpm
            cases hlk : look s (s.ticks + 1) p.1 with
            | none => rw [hlk] at hpm; simp at hpm
            | some f =>
              have := (hi _ _ _ hlk).2
              omega
        · exact g2 o ho p hp
    intro o ho
    unfold runsOf
    rw [List.filter_eq_nil_iff]
    intro p hp
    have := (old pre _ _ _ inv_init h1).2 o ho p hp
    simp only [decide_eq_true_eq]
    rw [e3]
    simp only
    omega
  · have hn : ∀ t, look s1 t tc.cancelId = none := by
      intro t
      cases hl : look s1 t tc.cancelId with
      | none => rfl
      | some f' =>
        have := (hi _ _ _ hl).2
        rw [e3] at this
        simp only at this
        omega
    refine pending_fires tc f post s3 s' outs' (max 1 n).toNat (by rw [e3]; simp only; omega) ?_ ?_ ?_ h4
    · intro t
      rw [e4, hn]
      simp
    · rw [e3]; simp only; omega
    · omega

/-- A delay of at most 2^62 ticks. -/
def Small : Op F → Prop
  | .set n _ => n ≤ 2^62 ∧ -2^62 ≤ n
  | _ => True

/-- **C43**, no overflow: up to 2^61 calls with delays between -2^62 and 2^62 never abort and never
overflow, so the theorem above applies to them. -/
theorem C43_no_overflow (os : List (Op F)) (hlen : os.length ≤ 2^61) (hs : ∀ o ∈ os, Small o) :
    ∃ r, run (init F) os = .ok r := by
  suffices H : ∀ (os : List (Op F)) (s : St F), 0 ≤ s.ticks → 0 ≤ s.gen → s.ticks + os.length ≤ 2^61 →
      s.gen + os.length ≤ 2^61 → (∀ o ∈ os, Small o) → ∃ r, run s os = .ok r by
    exact H os (init F) (by simp [init]) (by simp [init]) (by simp [init]; omega) (by simp [init]; omega) hs
  intro os
  induction os with
  | nil => intro s _ _ _ _ _; exact ⟨_, rfl⟩
  | cons o os ih =>
    intro s h1 h2 h3 h4 hs
    simp only [List.length_cons] at h3 h4
    have hmax : I64MAX = 2^63 - 1 := rfl
    have hmin : I64MIN = -2^63 := rfl
    have hlast : ∃ s1 out, step s o = .ok (s1, out) ∧ 0 ≤ s1.ticks ∧ 0 ≤ s1.gen ∧ s1.ticks ≤ s.ticks + 1 ∧ s1.gen ≤ s.gen + 1 := by
      cases o with
      | set n f =>
        have hn := hs _ List.mem_cons_self
        simp only [Small] at hn
        have a1 : add64 n s.ticks = .ok (n + s.ticks) := by
          unfold add64; rw [if_neg (by omega)]
        have a2 : add64 (if n + s.ticks ≤ s.ticks then 1 else n) s.ticks = .ok ((if n + s.ticks ≤ s.ticks then 1 else n) + s.ticks) := by
          unfold add64; rw [if_neg (by split <;> omega)]
        have a3 : add64 s.gen 1 = .ok (s.gen + 1) := by
          unfold add64; rw [if_neg (by omega)]
        have a4 : decide ((if n + s.ticks ≤ s.ticks then 1 else n) + s.ticks > s.ticks) = true := by
          rw [decide_eq_true_eq]; split <;> omega
        have hex : ∃ q, setTimeout s n f = .ok q := by
          simp only [setTimeout, a1, Out.bind_ok, a2, a4, Out.check_true, a3, Out.pure_eq]
          exact ⟨_, rfl⟩
        obtain ⟨⟨s1, tc⟩, hq⟩ := hex
        obtain ⟨e1, e2, _, _⟩ := set_spec hq
        exact ⟨s1, none, by simp [step, hq], by omega, by omega, by omega, by omega⟩
      | cancel tc =>
        obtain ⟨e1, e2, _⟩ := cancel_spec s tc
        exact ⟨_, _, rfl, by omega, by omega, by omega, by omega⟩
      | tick =>
        have a1 : add64 s.ticks 1 = .ok (s.ticks + 1) := by
          unfold add64; rw [if_neg (by omega)]
        cases hf : s.timeouts.find (s.ticks + 1) with
        | none =>
          refine ⟨{ s with ticks := s.ticks + 1 }, some [], by simp [step, timerTick, a1, hf], ?_⟩
          simp only; omega
        | some ts =>
          refine ⟨{ s with ticks := s.ticks + 1, timeouts := s.timeouts.erase (s.ticks + 1) }, some ts.list,
            by simp [step, timerTick, a1, hf], ?_⟩
          simp only; omega
    obtain ⟨s1, out, hs1, g1, g2, g3, g4⟩ := hlast
    obtain ⟨r, hr⟩ := ih s1 g1 g2 (by omega) (by omega) (fun o ho => hs o (List.mem_cons_of_mem _ ho))
    exact ⟨(r.1, out.toList ++ r.2), by simp [run, hs1, hr]⟩

/-- Outside that range the code overflows: registering for `INT64_MAX` ticks after the first tick. -/
theorem C43_overflow_ub : run (init Unit) [.tick, .set (2^63 - 1) ()] = .ub := by rfl

/-- Non-vacuity: three registrations, one cancelled, one with a negative delay. -/
example : (match run (init Nat) [.tick, .set 2 7, .set (-3) 8, .set 1 9, .cancel ⟨2, 3⟩, .tick, .set 1 5, .tick, .tick] with
  | .ok (_, outs) => outs | _ => []) = [[], [(2, 8)], [(1, 7), (4, 5)], []] := by decide

end Svr.Props.Timeout
