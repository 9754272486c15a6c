import Verif.Timeout

/-!
# Model of the requests a replica sends to its peers (enclave/core/core.cc)

`SendE2ETransaction`, the response branch of `HandleE2E`, `ResetPeer` and the timeout closure, over the model of
`enclave/timeout`. `Q` is the type of peer ids, `W` names the callbacks. A step is one critical section of `e2e_txn_mu_` (or of the
timer). A callback moved out of the table in a critical section is called by the same thread right after it: the model records it as
done in that step. What callbacks themselves do are later steps.
-/

set_option linter.unusedSectionVars false

namespace Svr.Core.E2E
open Svr.Timeout

/-- Why a callback runs (the arguments of the `E2ECallback`). -/
inductive Result
  | unsent (err : Nat)      -- `SendToPeer` failed with this error
  | response (status : Nat) -- the peer answered with this status
  | timeout                 -- `Core_E2ETransactionTimeout`
  | reset                   -- `Core_E2ETransactionReset`
deriving DecidableEq

/-- `E2ECall` (enclave/core/core.h:316-320): the callback, its timeout, the peer asked. -/
structure Call (Q W : Type) where
  who : W
  cancel : Cancel
  peer : Q

/-- The part of `Core` concerned (enclave/core/core.h:264, 301-321). Timeouts holding `some tx` are closures of
`SendE2ETransaction`; those holding `none` belong to other users of `timeout_`, whose `Cancel`s are in `others`. `due` holds the
closures that `TimerTick` has taken out and not run yet (enclave/timeout/timeout.cc:20-27). -/
structure St (Q W : Type) where
  txId : Nat
  calls : OMap Nat (Call Q W)
  timer : Timeout.St (Option Nat)
  others : List Cancel
  due : List Nat
  done : List (W × Result)

variable {Q W : Type} [DecidableEq Q]

/-- `Core::Core` (enclave/core/core.cc:97-105). -/
def init (Q W : Type) : St Q W := ⟨0, OMap.empty, Timeout.init _, [], [], []⟩

/-- `Cancel()` (enclave/timeout/timeout.h:20). -/
def noCancel : Cancel := ⟨0, 0⟩

inductive Ev (Q W : Type)
  /-- `SendE2ETransaction` for callback `who`; `timeout` is `e2e_txn_timeout_ticks` when `with_timeout`; `err` is what
  `SendToPeer` returns (0 is OK). -/
  | send (who : W) (peer : Q) (timeout : Option Nat) (err : Nat)
  /-- A `transaction_response` from a peer. -/
  | respond (sender : Q) (tx : Nat) (status : Nat)
  /-- `TimerTick` up to the release of its lock. -/
  | tick
  /-- One of the closures taken out by a tick runs. -/
  | expire (tx : Nat)
  /-- `ResetPeer`. -/
  | reset (peer : Q)
  /-- Some other code sets a timeout. -/
  | otherSet (n : Int)
  /-- Some other code cancels one of its timeouts. -/
  | otherCancel (i : Nat)

/-- `Core::SendE2ETransaction` (enclave/core/core.cc:1930-1972). -/
def send (s : St Q W) (who : W) (peer : Q) (timeout : Option Nat) (err : Nat) : Out (St Q W) :=
  let tx := (s.txId + 1) % 2^64
  if err ≠ 0 then pure { s with txId := tx, done := s.done ++ [(who, .unsent err)] }
  else match timeout with
    | none => pure { s with txId := tx, calls := s.calls.insert tx ⟨who, noCancel, peer⟩ }
    | some n => do
      let (timer, tc) ← setTimeout s.timer n (some tx)
      pure { s with txId := tx, timer := timer, calls := s.calls.insert tx ⟨who, tc, peer⟩ }

/-- The `kTransactionResponse` branch of `Core::HandleE2E` (enclave/core/core.cc:1127-1145). -/
def respond (s : St Q W) (sender : Q) (tx status : Nat) : St Q W :=
  match s.calls.find tx with
  | none => s
  | some c =>
    if c.peer ≠ sender then s
    else { s with
      calls := s.calls.erase tx
      timer := cancelTimeout s.timer c.cancel
      done := s.done ++ [(c.who, .response status)] }

/-- The closure registered by `Core::SendE2ETransaction` (enclave/core/core.cc:1956-1965). -/
def expire (s : St Q W) (tx : Nat) : St Q W :=
  match s.calls.find tx with
  | none => { s with due := s.due.erase tx }
  | some c => { s with due := s.due.erase tx, calls := s.calls.erase tx, done := s.done ++ [(c.who, .timeout)] }

/-- `Core::ResetPeer` (enclave/core/core.cc:1759-1783). The table is an `unordered_map` in the code: the order of the callbacks is not
specified there. -/
def reset (s : St Q W) (peer : Q) : St Q W :=
  let gone := s.calls.list.filter (fun p => p.2.peer = peer)
  { s with
    calls := s.calls.filterMapV (fun c => if c.peer = peer then none else some c)
    timer := gone.foldl (fun t p => cancelTimeout t p.2.cancel) s.timer
    done := s.done ++ gone.map (fun p => (p.2.who, .reset)) }

/-- One step. -/
def step (s : St Q W) : Ev Q W → Out (St Q W)
  | .send who peer timeout err => send s who peer timeout err
  | .respond sender tx status => pure (respond s sender tx status)
  | .tick => do
    let (timer, l) ← timerTick s.timer
    pure { s with timer := timer, due := s.due ++ l.filterMap (·.2) }
  | .expire tx => pure (expire s tx)
  | .reset peer => pure (reset s peer)
  | .otherSet n => do
    let (timer, tc) ← setTimeout s.timer n none
    pure { s with timer := timer, others := tc :: s.others }
  | .otherCancel i => match s.others[i]? with
    | none => pure s
    | some tc => pure { s with timer := cancelTimeout s.timer tc }

/-- Only a closure taken out by a tick can run. -/
def Able (s : St Q W) : Ev Q W → Prop
  | .expire tx => tx ∈ s.due
  | _ => True

instance (s : St Q W) (e : Ev Q W) : Decidable (Able s e) := by
  cases e <;> simp only [Able] <;> infer_instance

/-- Executions. -/
inductive Run : St Q W → List (Ev Q W) → St Q W → Prop
  | nil (s) : Run s [] s
  | cons {s s1 s2 e es} (ha : Able s e) (h : step s e = .ok s1) (hr : Run s1 es s2) : Run s (e :: es) s2

/-- Executable form of `Run`. -/
def play : St Q W → List (Ev Q W) → Option (St Q W)
  | s, [] => some s
  | s, e :: es => if Able s e then match step s e with
      | .ok s1 => play s1 es
      | _ => none
    else none

theorem play_run : ∀ {es : List (Ev Q W)} {s s' : St Q W}, play s es = some s' → Run s es s'
  | [], s, s', h => by simp only [play, Option.some.injEq] at h; subst h; exact .nil _
  | e :: es, s, s', h => by
    simp only [play] at h
    split at h
    · rename_i ha
      split at h
      · rename_i s1 h1
        exact .cons ha h1 (play_run h)
      · cases h
    · cases h

theorem Run.split {es fs : List (Ev Q W)} : ∀ {s s' : St Q W}, Run s (es ++ fs) s' → ∃ m, Run s es m ∧ Run m fs s' := by
  induction es with
  | nil => intro s s' h; exact ⟨s, .nil s, h⟩
  | cons e es ih =>
    intro s s' h
    cases h with
    | cons ha h1 hr =>
      obtain ⟨m, h2, h3⟩ := ih hr
      exact ⟨m, .cons ha h1 h2, h3⟩

/-! ### Invariant -/

/-- Number of requests in a list of events. -/
def sends : List (Ev Q W) → Nat
  | [] => 0
  | .send .. :: es => sends es + 1
  | _ :: es => sends es

theorem sends_append (a b : List (Ev Q W)) : sends (a ++ b) = sends a + sends b := by
  induction a with
  | nil => simp [sends]
  | cons e a ih => cases e <;> simp only [List.cons_append, sends, ih] <;> omega

structure Inv (s : St Q W) : Prop where
  timer : Timeout.Inv s.timer
  pos : 0 ≤ s.timer.ticks ∧ 0 ≤ s.timer.gen
  key : ∀ tx c, s.calls.find tx = some c → tx ≤ s.txId
  old : ∀ t g tx, look s.timer t g = some (some tx) → tx ≤ s.txId
  dueOld : ∀ tx ∈ s.due, tx ≤ s.txId
  id : ∀ tx c, s.calls.find tx = some c → c.cancel.cancelId ≤ s.timer.gen
  own : ∀ tx c f, s.calls.find tx = some c → look s.timer c.cancel.atTick c.cancel.cancelId = some f → f = some tx
  oid : ∀ tc ∈ s.others, tc.cancelId ≤ s.timer.gen
  oown : ∀ tc ∈ s.others, ∀ f, look s.timer tc.atTick tc.cancelId = some f → f = none

theorem inv_init : Inv (init Q W) where
  timer := Timeout.inv_init
  pos := by simp [init, Timeout.init]
  key := by intro tx c h; simp [init] at h
  old := by intro t g tx h; simp [init, look, Timeout.init] at h
  dueOld := by intro tx h; simp [init] at h
  id := by intro tx c h; simp [init] at h
  own := by intro tx c f h; simp [init] at h
  oid := by intro tc h; simp [init] at h
  oown := by intro tc h; simp [init] at h

theorem Inv.look_zero {s : St Q W} (h : Inv s) : look s.timer noCancel.atTick noCancel.cancelId = none := by
  cases hl : look s.timer noCancel.atTick noCancel.cancelId with
  | none => rfl
  | some f =>
    have := (h.timer _ _ _ hl).1
    have h2 := h.pos.1
    simp only [noCancel] at this
    omega

/-- Cancelling timeouts only removes timeouts. -/
structure Less (t t' : Timeout.St (Option Nat)) : Prop where
  ticks : t'.ticks = t.ticks
  gen : t'.gen = t.gen
  sub : ∀ a b f, look t' a b = some f → look t a b = some f

theorem Less.refl (t : Timeout.St (Option Nat)) : Less t t := ⟨rfl, rfl, fun _ _ _ h => h⟩

theorem Less.trans {a b c : Timeout.St (Option Nat)} (h : Less a b) (k : Less b c) : Less a c :=
  ⟨k.ticks.trans h.ticks, k.gen.trans h.gen, fun _ _ _ x => h.sub _ _ _ (k.sub _ _ _ x)⟩

theorem less_cancel (t : Timeout.St (Option Nat)) (tc : Cancel) : Less t (cancelTimeout t tc) := by
  obtain ⟨h1, h2, h3⟩ := cancel_spec t tc
  refine ⟨h1, h2, ?_⟩
  intro a b f h
  rw [h3] at h
  split at h
  · cases h
  · exact h

theorem less_fold (l : List (Nat × Call Q W)) : ∀ t, Less t (l.foldl (fun t p => cancelTimeout t p.2.cancel) t) := by
  induction l with
  | nil => intro t; exact .refl t
  | cons p l ih => intro t; exact (less_cancel t p.2.cancel).trans (ih _)

/-- What a sequence of cancellations keeps. -/
theorem fold_keeps (a b : Int) (f : Option Nat) (l : List (Nat × Call Q W)) : ∀ t,
    look t a b = some f → (∀ p ∈ l, p.2.cancel ≠ ⟨a, b⟩) →
    look (l.foldl (fun t p => cancelTimeout t p.2.cancel) t) a b = some f := by
  induction l with
  | nil => intro t h _; exact h
  | cons p l ih =>
    intro t h hn
    refine ih _ ?_ (fun q hq => hn q (List.mem_cons_of_mem _ hq))
    rw [(cancel_spec t p.2.cancel).2.2, if_neg]
    · exact h
    · rintro ⟨e1, e2⟩
      apply hn p (List.mem_cons_self ..)
      cases hc : p.2.cancel with
      | mk x y => rw [hc] at e1 e2; simp only at e1 e2; rw [e1, e2]

/-- Steps that only remove calls and timeouts keep the invariant. -/
theorem Inv.shrink {s s' : St Q W} (h : Inv s) (hid : s'.txId = s.txId) (ht : Less s.timer s'.timer)
    (hc : ∀ tx c, s'.calls.find tx = some c → s.calls.find tx = some c)
    (hd : ∀ tx ∈ s'.due, tx ∈ s.due) (ho : s'.others = s.others) : Inv s' where
  timer := by
    intro a b f hl
    rw [ht.ticks, ht.gen]
    exact h.timer a b f (ht.sub _ _ _ hl)
  pos := by rw [ht.ticks, ht.gen]; exact h.pos
  key := by rw [hid]; exact fun tx c hx => h.key tx c (hc tx c hx)
  old := by rw [hid]; exact fun a b tx hl => h.old a b tx (ht.sub _ _ _ hl)
  dueOld := by rw [hid]; exact fun tx hx => h.dueOld tx (hd tx hx)
  id := by rw [ht.gen]; exact fun tx c hx => h.id tx c (hc tx c hx)
  own := fun tx c f hx hl => h.own tx c f (hc tx c hx) (ht.sub _ _ _ hl)
  oid := by rw [ht.gen, ho]; exact h.oid
  oown := by rw [ho]; exact fun tc hm f hl => h.oown tc hm f (ht.sub _ _ _ hl)

theorem mem_tick {t t' : Timeout.St (Option Nat)} {l : List (Int × Option Nat)} (h : timerTick t = .ok (t', l)) (g : Int)
    (f : Option Nat) : (g, f) ∈ l ↔ look t (t.ticks + 1) g = some f := by
  obtain ⟨_, _, _, h4⟩ := tick_spec h
  have := h4 g
  constructor
  · intro hm
    have hm' : (g, f) ∈ l.filter (fun p => p.1 = g) := by simp [hm]
    rw [this] at hm'
    cases hl : look t (t.ticks + 1) g with
    | none => rw [hl] at hm'; simp at hm'
    | some f' => rw [hl] at hm'; simp at hm'; rw [hm']
  · intro hl
    have hm' : (g, f) ∈ l.filter (fun p => p.1 = g) := by rw [this, hl]; simp
    exact List.mem_of_mem_filter hm'

/-- Numbers of the requests are not reused before the counter wraps. -/
theorem step_inv {s s' : St Q W} {e : Ev Q W} (hi : Inv s) (hw : s.txId + 1 < 2^64) (h : step s e = .ok s') : Inv s' := by
  cases e with
  | send who peer timeout err =>
    simp only [step, send, Nat.mod_eq_of_lt hw] at h
    split at h
    · simp only [Out.pure_eq, Out.ok.injEq] at h
      subst h
      exact {
        timer := hi.timer, pos := hi.pos, id := hi.id, own := hi.own, oid := hi.oid, oown := hi.oown
        key := fun tx c hx => Nat.le_succ_of_le (hi.key tx c hx)
        old := fun a b tx hx => Nat.le_succ_of_le (hi.old a b tx hx)
        dueOld := fun tx hx => Nat.le_succ_of_le (hi.dueOld tx hx) }
    · cases timeout with
      | none =>
        simp only [Out.pure_eq, Out.ok.injEq] at h
        subst h
        refine {
          timer := hi.timer, pos := hi.pos, oid := hi.oid, oown := hi.oown
          old := fun a b tx hx => Nat.le_succ_of_le (hi.old a b tx hx)
          dueOld := fun tx hx => Nat.le_succ_of_le (hi.dueOld tx hx), key := ?key, id := ?id, own := ?own }
        case key =>
          intro tx c hx
          simp only [OMap.find_insert] at hx
          split at hx
          · rename_i e; exact Nat.le_of_eq e.symm
          · exact Nat.le_succ_of_le (hi.key tx c hx)
        case id =>
          intro tx c hx
          simp only [OMap.find_insert] at hx
          split at hx
          · cases hx; exact hi.pos.2
          · exact hi.id tx c hx
        case own =>
          intro tx c f hx hl
          simp only [OMap.find_insert] at hx
          split at hx
          · cases hx
            simp only [hi.look_zero] at hl
            cases hl
          · exact hi.own tx c f hx hl
      | some n =>
        simp only at h
        obtain ⟨⟨t, tc⟩, h1, h2⟩ := Out.bind_eq_ok.mp h
        simp only [Out.pure_eq, Out.ok.injEq] at h2
        subst h2
        obtain ⟨e1, e2, e3, e4⟩ := set_spec h1
        have hti : Timeout.Inv t := (Timeout.step_inv (o := .set n (some (s.txId + 1))) (out := none) hi.timer (by simp [Timeout.step, h1])).1
        have htc : tc.cancelId = s.timer.gen + 1 := by rw [e3]
        refine {
          timer := hti, pos := ?pos, oid := ?oid, oown := ?oown, old := ?old
          dueOld := fun tx hx => Nat.le_succ_of_le (hi.dueOld tx hx), key := ?key, id := ?id, own := ?own }
        case pos =>
          simp only [e1, e2]; exact ⟨hi.pos.1, by have := hi.pos.2; omega⟩
        case oid =>
          intro c hc; simp only [e2]; have := hi.oid c hc; omega
        case oown =>
          intro c hc f hl
          simp only [e4] at hl
          split at hl
          · rename_i e; have := hi.oid c hc; omega
          · exact hi.oown c hc f hl
        case old =>
          intro a b tx hl
          simp only [e4] at hl
          split at hl
          · simp only [Option.some.injEq] at hl; subst hl; exact Nat.le_refl _
          · exact Nat.le_succ_of_le (hi.old a b tx hl)
        case key =>
          intro tx c hx
          simp only [OMap.find_insert] at hx
          split at hx
          · rename_i e; exact Nat.le_of_eq e.symm
          · exact Nat.le_succ_of_le (hi.key tx c hx)
        case id =>
          intro tx c hx
          simp only [OMap.find_insert] at hx
          simp only [e2]
          split at hx
          · cases hx; simp only [htc]; omega
          · have := hi.id tx c hx; omega
        case own =>
          intro tx c f hx hl
          simp only [OMap.find_insert] at hx
          simp only [e4] at hl
          split at hx
          · rename_i e
            cases hx
            simp only [and_self, if_true, Option.some.injEq] at hl
            rw [← hl, e]
          · rw [if_neg] at hl
            · exact hi.own tx c f hx hl
            · rintro ⟨_, e⟩
              have := hi.id tx c hx
              omega
  | respond sender tx status =>
    simp only [step, Out.pure_eq, Out.ok.injEq] at h
    subst h
    unfold respond
    split
    · exact hi
    · split
      · exact hi
      · refine hi.shrink rfl (less_cancel _ _) ?_ (fun _ h => h) rfl
        intro tx' c' hx
        simp only [OMap.find_erase] at hx
        split at hx
        · cases hx
        · exact hx
  | tick =>
    simp only [step] at h
    obtain ⟨⟨t, l⟩, h1, h2⟩ := Out.bind_eq_ok.mp h
    simp only [Out.pure_eq, Out.ok.injEq] at h2
    subst h2
    obtain ⟨e1, e2, e3, e4⟩ := tick_spec h1
    have hti : Timeout.Inv t := (Timeout.step_inv (o := .tick) (out := some l) hi.timer (by simp [Timeout.step, h1])).1
    have hsub : ∀ a b f, look t a b = some f → look s.timer a b = some f := by
      intro a b f hl
      rw [e3] at hl
      split at hl
      · cases hl
      · exact hl
    refine {
      timer := hti, pos := ?pos, oid := ?oid, key := hi.key, id := ?id
      oown := fun tc hm f hl => hi.oown tc hm f (hsub _ _ _ hl)
      old := fun a b tx hl => hi.old a b tx (hsub _ _ _ hl)
      own := fun tx c f hx hl => hi.own tx c f hx (hsub _ _ _ hl)
      dueOld := ?dueOld }
    case pos =>
      simp only [e1, e2]; exact ⟨by have := hi.pos.1; omega, hi.pos.2⟩
    case oid =>
      simp only [e2]; exact hi.oid
    case id =>
      simp only [e2]; exact hi.id
    case dueOld =>
      intro tx hm
      simp only [List.mem_append, List.mem_filterMap] at hm
      rcases hm with hm | ⟨⟨g, f⟩, hm, hf⟩
      · exact hi.dueOld tx hm
      · simp only at hf
        subst hf
        exact hi.old _ _ _ ((mem_tick h1 g _).mp hm)
  | expire tx =>
    simp only [step, Out.pure_eq, Out.ok.injEq] at h
    subst h
    unfold expire
    split
    · exact hi.shrink rfl (.refl _) (fun _ _ h => h) (fun _ h => List.mem_of_mem_erase h) rfl
    · refine hi.shrink rfl (.refl _) ?_ (fun _ h => List.mem_of_mem_erase h) rfl
      intro tx' c' hx
      simp only [OMap.find_erase] at hx
      split at hx
      · cases hx
      · exact hx
  | reset peer =>
    simp only [step, Out.pure_eq, Out.ok.injEq] at h
    subst h
    refine hi.shrink rfl (less_fold _ _) ?_ (fun _ h => h) rfl
    intro tx c hx
    simp only [reset, OMap.find_filterMapV] at hx
    cases hf : s.calls.find tx with
    | none => rw [hf] at hx; simp at hx
    | some c' =>
      rw [hf] at hx
      simp only [Option.bind_some] at hx
      split at hx
      · cases hx
      · cases hx; rfl
  | otherSet n =>
    simp only [step] at h
    obtain ⟨⟨t, tc⟩, h1, h2⟩ := Out.bind_eq_ok.mp h
    simp only [Out.pure_eq, Out.ok.injEq] at h2
    subst h2
    obtain ⟨e1, e2, e3, e4⟩ := set_spec h1
    have hti : Timeout.Inv t := (Timeout.step_inv (o := .set n none) (out := none) hi.timer (by simp [Timeout.step, h1])).1
    have htc : tc.cancelId = s.timer.gen + 1 := by rw [e3]
    refine {
      timer := hti, pos := ?pos, oid := ?oid, oown := ?oown, old := ?old, dueOld := hi.dueOld, key := hi.key, id := ?id, own := ?own }
    case pos =>
      simp only [e1, e2]; exact ⟨hi.pos.1, by have := hi.pos.2; omega⟩
    case oid =>
      intro c hc
      simp only [e2]
      rcases List.mem_cons.mp hc with rfl | hc
      · omega
      · have := hi.oid c hc; omega
    case oown =>
      intro c hc f hl
      simp only [e4] at hl
      rcases List.mem_cons.mp hc with rfl | hc
      · simp only [and_self, if_true, Option.some.injEq] at hl; exact hl.symm
      · split at hl
        · simp only [Option.some.injEq] at hl; exact hl.symm
        · exact hi.oown c hc f hl
    case old =>
      intro a b tx hl
      simp only [e4] at hl
      split at hl
      · cases hl
      · exact hi.old a b tx hl
    case id =>
      intro tx c hx
      simp only [e2]
      have := hi.id tx c hx
      omega
    case own =>
      intro tx c f hx hl
      simp only [e4] at hl
      split at hl
      · rename_i e
        have := hi.id tx c hx
        omega
      · exact hi.own tx c f hx hl
  | otherCancel i =>
    simp only [step] at h
    split at h
    · simp only [Out.pure_eq, Out.ok.injEq] at h; subst h; exact hi
    · simp only [Out.pure_eq, Out.ok.injEq] at h
      subst h
      exact hi.shrink rfl (less_cancel _ _) (fun _ _ h => h) (fun _ h => h) rfl

theorem step_txId {s s' : St Q W} {e : Ev Q W} (hw : s.txId + sends [e] < 2^64) (h : step s e = .ok s') :
    s'.txId = s.txId + sends [e] := by
  cases e with
  | send who peer timeout err =>
    simp only [sends, Nat.zero_add] at hw
    simp only [step, send, Nat.mod_eq_of_lt hw] at h
    split at h
    · simp only [Out.pure_eq, Out.ok.injEq] at h; subst h; rfl
    · cases timeout with
      | none => simp only [Out.pure_eq, Out.ok.injEq] at h; subst h; rfl
      | some n =>
        simp only at h
        obtain ⟨⟨t, tc⟩, h1, h2⟩ := Out.bind_eq_ok.mp h
        simp only [Out.pure_eq, Out.ok.injEq] at h2
        subst h2
        rfl
  | respond sender tx status =>
    simp only [step, Out.pure_eq, Out.ok.injEq] at h
    subst h
    unfold respond
    split
    · rfl
    · split <;> rfl
  | tick =>
    simp only [step] at h
    obtain ⟨⟨t, tc⟩, h1, h2⟩ := Out.bind_eq_ok.mp h
    simp only [Out.pure_eq, Out.ok.injEq] at h2
    subst h2
    rfl
  | expire tx =>
    simp only [step, Out.pure_eq, Out.ok.injEq] at h
    subst h
    unfold expire
    split <;> rfl
  | reset peer => simp only [step, Out.pure_eq, Out.ok.injEq] at h; subst h; rfl
  | otherSet n =>
    simp only [step] at h
    obtain ⟨⟨t, tc⟩, h1, h2⟩ := Out.bind_eq_ok.mp h
    simp only [Out.pure_eq, Out.ok.injEq] at h2
    subst h2
    rfl
  | otherCancel i =>
    simp only [step] at h
    split at h <;> simp only [Out.pure_eq, Out.ok.injEq] at h <;> subst h <;> rfl

theorem sends_cons (e : Ev Q W) (es : List (Ev Q W)) : sends (e :: es) = sends [e] + sends es := sends_append [e] es

theorem run_inv : ∀ {es : List (Ev Q W)} {s s' : St Q W}, Inv s → s.txId + sends es + 1 < 2^64 → Run s es s' →
    Inv s' ∧ s'.txId = s.txId + sends es
  | [], s, s', hi, hw, h => by cases h; exact ⟨hi, rfl⟩
  | e :: es, s, s', hi, hw, h => by
    cases h with
    | cons ha h1 hr =>
      rw [sends_cons] at hw ⊢
      have h2 := step_txId (by omega) h1
      obtain ⟨h3, h4⟩ := run_inv (step_inv hi (by omega) h1) (by omega) hr
      exact ⟨h3, by omega⟩

end Svr.Core.E2E
