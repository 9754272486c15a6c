import Verif.Env.Start

/-!
# C70: starting the enclave from many threads

Threads call `svr2_init` and `svr2_input_message` as they like. There is no data race on `global_core` and it is never followed while
null; at most one start succeeds, others can be tried again after a failure; messages are handled by the one core that was started.
-/

namespace Svr.Props.Start

open Svr.Start

/-- **C70.** For every schedule of every number of threads: no undefined behaviour; `env::Init` is never run by two threads at once; at
most one call of `svr2_init` succeeds; and no message is handled before one did, or by another core than it made. -/
theorem C70_start (es : List (Nat × Bool × Bool)) : ∃ s, run .init es = .ok s ∧ ¬ Race s ∧
    (∀ t u, s.pc t = .env → s.pc u = .env → t = u) ∧
    s.rets.count .started ≤ 1 ∧
    (∀ c, .received c ∈ s.rets → .started ∈ s.rets ∧ s.core = some c) := by
  obtain ⟨s, e, i⟩ := inv_run es inv_init
  have hc : s.rets.count .started = starts s.rets := by
    unfold starts List.count
    congr 1
  refine ⟨s, e, no_race i, fun t u ht hu => i.one t u (by rw [ht]; rfl) (by rw [hu]; rfl), ?_, fun c h => ?_⟩
  · rw [hc, i.ret]
    split <;> decide
  · obtain ⟨h1, h2⟩ := i.got c h
    refine ⟨?_, h2⟩
    have := i.ret
    rw [if_pos h1, ← hc] at this
    exact List.count_pos_iff.mp (by omega)

/-- **C70.** Once a start has succeeded all messages are let in and no start is; until then, and while none is under way, every
start is tried and no message is let in. -/
theorem C70_let_in (es : List (Nat × Bool × Bool)) {s : St} (h : run .init es = .ok s) {t : Nat} (ht : s.pc t = .idle) (good : Bool) :
    (.started ∈ s.rets → step s t false good = .ok (s.go t .message) ∧ step s t true good = .ok (s.ret t .reInit)) ∧
      (.started ∉ s.rets → step s t false good = .ok (s.ret t .noInit)) ∧
      (.started ∉ s.rets → (∀ u, (s.pc u).inInit = false) → ∃ s', step s t true good = .ok s' ∧ s'.pc t = .parse) := by
  obtain ⟨s', e, i⟩ := inv_run es inv_init
  rw [h] at e
  cases e
  have hc : s.rets.count .started = starts s.rets := by
    unfold starts List.count
    congr 1
  have hr := i.ret
  have key : .started ∈ s.rets ↔ s.g = .initiated := by
    rw [← List.count_pos_iff, hc, hr]
    split <;> simp [*]
  rw [key]
  refine ⟨fun hg => ?_, fun hg => ?_, fun hg hn => ?_⟩
  · simp [step, ht, hg]
  · simp [step, ht, hg]
  · have : s.g = .uninitiated := by
      cases e : s.g with
      | uninitiated => rfl
      | initiating =>
        obtain ⟨u, hu⟩ := i.held e
        rw [hn u] at hu; cases hu
      | initiated => exact absurd e hg
    exact ⟨_, by simp [step, ht, this]; rfl, by simp [go_pc]⟩

/-- Thread 0 begins to start, thread 1 is refused and a message of thread 2 too; then thread 0 finishes and thread 2's message is handled
by core 1. -/
example : ∃ s, run .init [(0, true, true), (1, true, true), (2, false, true), (0, true, true), (0, true, true), (0, true, true),
      (0, true, true), (0, true, true), (0, true, true), (2, false, true), (2, false, true), (2, false, true)] = .ok s ∧
    s.rets = [.reInit, .noInit, .started, .received 1] := by
  rw [run_eq _ inv_init]
  exact ⟨_, rfl, by decide⟩

/-- Parsing fails; a second attempt succeeds. -/
example : ∃ s, run .init [(0, true, true), (0, true, false), (0, true, true), (1, true, true), (1, true, true), (1, true, true),
      (1, true, true), (1, true, true), (1, true, true), (1, true, true)] = .ok s ∧ s.rets = [.failed, .started] := by
  rw [run_eq _ inv_init]
  exact ⟨_, rfl, by decide⟩

end Svr.Props.Start
