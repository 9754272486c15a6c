import Verif.Core.E2E

/-!
# C38: requests to peers complete exactly once
-/

set_option linter.unusedSectionVars false

namespace Svr.Props.E2E
open Svr.Timeout (Cancel look setTimeout timerTick cancelTimeout set_spec tick_spec cancel_spec add64 I64MAX I64MIN)
open Svr.Core.E2E
variable {Q W : Type} [DecidableEq Q] [DecidableEq W]

/-! ### Specification -/

/-- What an event means for request number `tx` to `peer`: only an answer of that peer to that request, the run of its timeout and the
reset of that peer end it. -/
def ends (tx : Nat) (peer : Q) : Ev Q W → Option Result
  | .respond sender t status => if sender = peer ∧ t = tx then some (.response status) else none
  | .expire t => if t = tx then some .timeout else none
  | .reset p => if p = peer then some .reset else none
  | _ => none

/-- The first event to end it decides. -/
def verdict (tx : Nat) (peer : Q) (es : List (Ev Q W)) : Option Result := es.findSome? (ends tx peer)

/-- The results a callback was run with, in order. -/
def calledWith (s : St Q W) (who : W) : List Result := (s.done.filter (fun p => p.1 = who)).map (·.2)

/-- No request of the sequence has this callback. -/
def Fresh (who : W) (es : List (Ev Q W)) : Prop := ∀ e ∈ es, ∀ peer t err, e ≠ .send who peer t err

/-- Number of ticks in a list of events. -/
def ticks : List (Ev Q W) → Nat
  | [] => 0
  | .tick :: es => ticks es + 1
  | _ :: es => ticks es

/-! ### Lemmas -/

/-- No outstanding call has this callback. -/
def Idle (s : St Q W) (who : W) : Prop := ∀ tx c, s.calls.find tx = some c → c.who ≠ who

theorem calledWith_append (s : St Q W) (who : W) (l : List (W × Result)) :
    ((s.done ++ l).filter (fun p => p.1 = who)).map (·.2) = calledWith s who ++ (l.filter (fun p => p.1 = who)).map (·.2) := by
  simp [calledWith]

theorem idle_step {s s' : St Q W} {e : Ev Q W} {who : W} (hf : Fresh who [e]) (hi : Idle s who) (h : step s e = .ok s') :
    Idle s' who ∧ calledWith s' who = calledWith s who := by
  cases e with
  | send who' peer timeout err =>
    have hne : who' ≠ who := by
      rintro rfl
      exact hf _ (List.mem_singleton.mpr rfl) peer timeout err rfl
    simp only [step, send] at h
    split at h
    · simp only [Out.pure_eq, Out.ok.injEq] at h
      subst h
      refine ⟨hi, ?_⟩
      simp [calledWith, hne]
    · cases timeout with
      | none =>
        simp only [Out.pure_eq, Out.ok.injEq] at h
        subst h
        refine ⟨?_, rfl⟩
        intro tx c hx
        simp only [OMap.find_insert] at hx
        split at hx
        · cases hx; exact hne
        · exact hi tx c hx
      | some n =>
        simp only at h
        obtain ⟨⟨t, tc⟩, h1, h2⟩ := Out.bind_eq_ok.mp h
        simp only [Out.pure_eq, Out.ok.injEq] at h2
        subst h2
        refine ⟨?_, rfl⟩
        intro tx c hx
        simp only [OMap.find_insert] at hx
        split at hx
        · cases hx; exact hne
        · exact hi tx c hx
  | respond sender tx status =>
    simp only [step, Out.pure_eq, Out.ok.injEq] at h
    subst h
    unfold respond
    split
    · exact ⟨hi, rfl⟩
    · rename_i c hc
      split
      · exact ⟨hi, rfl⟩
      · refine ⟨?_, ?_⟩
        · intro tx' c' hx
          simp only [OMap.find_erase] at hx
          split at hx
          · cases hx
          · exact hi tx' c' hx
        · simp [calledWith, hi tx c hc]
  | tick =>
    simp only [step] at h
    obtain ⟨⟨t, tc⟩, h1, h2⟩ := Out.bind_eq_ok.mp h
    simp only [Out.pure_eq, Out.ok.injEq] at h2
    subst h2
    exact ⟨hi, rfl⟩
  | expire tx =>
    simp only [step, Out.pure_eq, Out.ok.injEq] at h
    subst h
    unfold expire
    split
    · exact ⟨hi, rfl⟩
    · rename_i c hc
      refine ⟨?_, ?_⟩
      · intro tx' c' hx
        simp only [OMap.find_erase] at hx
        split at hx
        · cases hx
        · exact hi tx' c' hx
      · simp [calledWith, hi tx c hc]
  | reset peer =>
    simp only [step, Out.pure_eq, Out.ok.injEq] at h
    subst h
    refine ⟨?_, ?_⟩
    · intro tx c hx
      simp only [reset, OMap.find_filterMapV] at hx
      cases hf : s.calls.find tx with
      | none => rw [hf] at hx; simp at hx
      | some c' =>
        rw [hf] at hx
        simp only [Option.bind_some] at hx
        split at hx
        · cases hx
        · cases hx; exact hi tx _ hf
    · simp only [reset, calledWith, List.filter_append, List.map_append]
      refine (List.append_right_eq_self (xs := _)).mpr ?_
      rw [List.map_eq_nil_iff, List.filter_eq_nil_iff]
      intro q hq
      obtain ⟨⟨tx, c⟩, hm, rfl⟩ := List.mem_map.mp hq
      have := hi tx c (OMap.mem_list.mp (List.mem_of_mem_filter hm))
      simpa using this
  | otherSet n =>
    simp only [step] at h
    obtain ⟨⟨t, tc⟩, h1, h2⟩ := Out.bind_eq_ok.mp h
    simp only [Out.pure_eq, Out.ok.injEq] at h2
    subst h2
    exact ⟨hi, rfl⟩
  | otherCancel i =>
    simp only [step] at h
    split at h <;> simp only [Out.pure_eq, Out.ok.injEq] at h <;> subst h <;> exact ⟨hi, rfl⟩

theorem Fresh.head {who : W} {e : Ev Q W} {es} (h : Fresh who (e :: es)) : Fresh who [e] :=
  fun x hx => h x (by rw [List.mem_singleton.mp hx]; exact List.mem_cons_self ..)

theorem Fresh.tail {who : W} {e : Ev Q W} {es} (h : Fresh who (e :: es)) : Fresh who es :=
  fun x hx => h x (List.mem_cons_of_mem _ hx)

theorem idle_run : ∀ {es : List (Ev Q W)} {s s' : St Q W} {who : W}, Fresh who es → Idle s who → Run s es s' →
    Idle s' who ∧ calledWith s' who = calledWith s who
  | [], s, s', who, _, hi, h => by cases h; exact ⟨hi, rfl⟩
  | e :: es, s, s', who, hf, hi, h => by
    cases h with
    | cons ha h1 hr =>
      obtain ⟨h2, h3⟩ := idle_step hf.head hi h1
      obtain ⟨h4, h5⟩ := idle_run hf.tail h2 hr
      exact ⟨h4, h5.trans h3⟩

/-- The only outstanding call with this callback is number `tx`. -/
structure Waits (s : St Q W) (tx : Nat) (c : Call Q W) : Prop where
  here : s.calls.find tx = some c
  only : ∀ tx' c', s.calls.find tx' = some c' → c'.who = c.who → tx' = tx

theorem Waits.cancel {s : St Q W} {tx : Nat} {c : Call Q W} (h : Waits s tx c) :
    Idle { s with calls := s.calls.erase tx } c.who := by
  intro tx' c' hx he
  simp only [OMap.find_erase] at hx
  split at hx
  · cases hx
  · rename_i hne
    exact hne (h.only tx' c' hx he).symm

/-- An event either ends the call, running its callback once, or leaves it waiting. -/
theorem waits_step {s s' : St Q W} {e : Ev Q W} {tx : Nat} {c : Call Q W} (hi : Inv s) (hw : s.txId + 1 < 2^64)
    (hf : Fresh c.who [e]) (h : Waits s tx c) (hs : step s e = .ok s') :
    match ends tx c.peer e with
    | some r => Idle s' c.who ∧ calledWith s' c.who = calledWith s c.who ++ [r]
    | none => Waits s' tx c ∧ calledWith s' c.who = calledWith s c.who := by
  cases e with
  | send who' peer timeout err =>
    have hne : who' ≠ c.who := by
      rintro rfl
      exact hf _ (List.mem_singleton.mpr rfl) peer timeout err rfl
    have hold := hi.key tx c h.here
    have key : ∀ (cn : Call Q W), cn.who = who' → ∀ s'' : St Q W, s''.calls = s.calls.insert (s.txId + 1) cn → Waits s'' tx c := by
      intro cn hcn s'' hs''
      constructor
      · rw [hs'', OMap.find_insert_ne _ _ (by omega)]
        exact h.here
      · intro tx' c' hx he
        rw [hs'', OMap.find_insert] at hx
        split at hx
        · cases hx; rw [hcn] at he; exact absurd he hne
        · exact h.only tx' c' hx he
    simp only [step, send, Nat.mod_eq_of_lt hw] at hs
    simp only [ends]
    split at hs
    · simp only [Out.pure_eq, Out.ok.injEq] at hs
      subst hs
      refine ⟨⟨h.here, h.only⟩, ?_⟩
      simp [calledWith, hne]
    · cases timeout with
      | none =>
        simp only [Out.pure_eq, Out.ok.injEq] at hs
        subst hs
        exact ⟨key _ rfl _ rfl, rfl⟩
      | some n =>
        simp only at hs
        obtain ⟨⟨t, tc⟩, h1, h2⟩ := Out.bind_eq_ok.mp hs
        simp only [Out.pure_eq, Out.ok.injEq] at h2
        subst h2
        exact ⟨key _ rfl _ rfl, rfl⟩
  | respond sender tx' status =>
    simp only [step, Out.pure_eq, Out.ok.injEq] at hs
    subst hs
    simp only [ends]
    by_cases ht : tx' = tx
    · subst ht
      by_cases hp : sender = c.peer
      · subst hp
        simp only [and_self, if_true, respond, h.here, ne_eq, not_true, if_false]
        exact ⟨h.cancel, by simp [calledWith]⟩
      · rw [if_neg (fun x => hp x.1)]
        simp only [respond, h.here, ne_eq]
        rw [if_pos (fun x => hp x.symm)]
        exact ⟨h, rfl⟩
    · rw [if_neg (fun x => ht x.2)]
      show Waits _ tx c ∧ calledWith _ c.who = calledWith s c.who
      unfold respond
      split
      · exact ⟨h, rfl⟩
      · rename_i c' hc'
        split
        · exact ⟨h, rfl⟩
        · refine ⟨⟨?_, ?_⟩, ?_⟩
          · simp only [OMap.find_erase, if_neg ht]; exact h.here
          · intro x c'' hx he
            simp only [OMap.find_erase] at hx
            split at hx
            · cases hx
            · exact h.only x c'' hx he
          · have : c'.who ≠ c.who := fun x => ht (h.only _ _ hc' x)
            simp [calledWith, this]
  | tick =>
    simp only [step] at hs
    obtain ⟨⟨t, tc⟩, h1, h2⟩ := Out.bind_eq_ok.mp hs
    simp only [Out.pure_eq, Out.ok.injEq] at h2
    subst h2
    exact ⟨⟨h.here, h.only⟩, rfl⟩
  | expire tx' =>
    simp only [step, Out.pure_eq, Out.ok.injEq] at hs
    subst hs
    simp only [ends]
    by_cases ht : tx' = tx
    · subst ht
      simp only [if_true, expire, h.here]
      exact ⟨h.cancel, by simp [calledWith]⟩
    · rw [if_neg ht]
      show Waits _ tx c ∧ calledWith _ c.who = calledWith s c.who
      unfold expire
      split
      · exact ⟨⟨h.here, h.only⟩, rfl⟩
      · rename_i c' hc'
        refine ⟨⟨?_, ?_⟩, ?_⟩
        · simp only [OMap.find_erase, if_neg ht]; exact h.here
        · intro x c'' hx he
          simp only [OMap.find_erase] at hx
          split at hx
          · cases hx
          · exact h.only x c'' hx he
        · have : c'.who ≠ c.who := fun x => ht (h.only _ _ hc' x)
          simp [calledWith, this]
  | reset peer =>
    simp only [step, Out.pure_eq, Out.ok.injEq] at hs
    subst hs
    simp only [ends]
    have hfind : ∀ x c', (reset s peer).calls.find x = some c' → s.calls.find x = some c' ∧ c'.peer ≠ peer := by
      intro x c' hx
      simp only [reset, OMap.find_filterMapV] at hx
      cases hf : s.calls.find x with
      | none => rw [hf] at hx; simp at hx
      | some c'' =>
        rw [hf] at hx
        simp only [Option.bind_some] at hx
        split at hx
        · cases hx
        · rename_i hn; cases hx; exact ⟨rfl, hn⟩
    have hfilter : s.calls.list.filter (fun q => decide (q.2.who = c.who)) = [(tx, c)] := by
      have h1 := OMap.filter_key s.calls tx
      rw [h.here] at h1
      simp only [Option.map_some, Option.toList_some] at h1
      rw [← h1]
      apply List.filter_congr
      rintro ⟨x, c'⟩ hm
      have hx := OMap.mem_list.mp hm
      by_cases he : x = tx
      · subst he
        rw [h.here] at hx
        cases hx
        simp
      · simp only [he, decide_false, decide_eq_false_iff_not]
        exact fun y => he (h.only _ _ hx y)
    have hcalled : calledWith (reset s peer) c.who = calledWith s c.who ++ (if peer = c.peer then [.reset] else []) := by
      simp only [reset, calledWith, List.filter_append, List.map_append, List.filter_map, List.map_map, List.filter_filter]
      congr 1
      have : (fun (a : Nat × Call Q W) => ((fun (p : W × Result) => decide (p.1 = c.who)) ∘ fun (p : Nat × Call Q W) => (p.2.who, Result.reset)) a && decide (a.2.peer = peer))
          = fun a => decide (a.2.peer = peer) && decide (a.2.who = c.who) := by
        funext a
        simp only [Function.comp, Bool.and_comm]
      rw [this, ← List.filter_filter, hfilter]
      by_cases hp : peer = c.peer
      · simp [hp]
      · have : ¬ c.peer = peer := fun x => hp x.symm
        simp [hp, this]
    by_cases hp : peer = c.peer
    · rw [if_pos hp] at hcalled ⊢
      refine ⟨?_, hcalled⟩
      intro x c' hx he
      obtain ⟨h1, h2⟩ := hfind x c' hx
      have := h.only x c' h1 he
      subst this
      rw [h.here] at h1
      cases h1
      exact h2 hp.symm
    · rw [if_neg hp] at hcalled ⊢
      refine ⟨⟨?_, ?_⟩, by simpa using hcalled⟩
      · simp only [reset, OMap.find_filterMapV, h.here, Option.bind_some]
        rw [if_neg (fun x => hp x.symm)]
      · intro x c' hx he
        exact h.only x c' (hfind x c' hx).1 he
  | otherSet n =>
    simp only [step] at hs
    obtain ⟨⟨t, tc⟩, h1, h2⟩ := Out.bind_eq_ok.mp hs
    simp only [Out.pure_eq, Out.ok.injEq] at h2
    subst h2
    exact ⟨⟨h.here, h.only⟩, rfl⟩
  | otherCancel i =>
    simp only [step] at hs
    split at hs <;> simp only [Out.pure_eq, Out.ok.injEq] at hs <;> subst hs <;> exact ⟨⟨h.here, h.only⟩, rfl⟩

theorem waits_run : ∀ {es : List (Ev Q W)} {s s' : St Q W} {tx : Nat} {c : Call Q W}, Inv s → s.txId + sends es + 1 < 2^64 →
    Fresh c.who es → Waits s tx c → Run s es s' →
    calledWith s' c.who = calledWith s c.who ++ (verdict tx c.peer es).toList ∧
      (verdict tx c.peer es = none → s'.calls.find tx = some c)
  | [], s, s', tx, c, _, _, _, hw, h => by cases h; exact ⟨by simp [verdict], fun _ => hw.here⟩
  | e :: es, s, s', tx, c, hi, hb, hf, hw, h => by
    cases h with
    | cons ha h1 hr =>
      rw [sends_cons] at hb
      have h2 := waits_step hi (by omega) hf.head hw h1
      simp only [verdict, List.findSome?_cons]
      cases he : ends tx c.peer e with
      | some r =>
        rw [he] at h2
        obtain ⟨h3, h4⟩ := idle_run hf.tail h2.1 hr
        refine ⟨?_, fun x => by cases x⟩
        rw [h4, h2.2]
        rfl
      | none =>
        rw [he] at h2
        have h5 := step_txId (by omega) h1
        obtain ⟨h6, h7⟩ := waits_run (step_inv hi (by omega) h1) (by omega) hf.tail h2.1 hr
        exact ⟨by rw [h6, h2.2]; rfl, h7⟩

/-- Before its request a callback is nowhere. -/
theorem fresh_init {pre : List (Ev Q W)} {m : St Q W} {who : W} (hf : Fresh who pre) (h : Run (init Q W) pre m) :
    Idle m who ∧ calledWith m who = [] := by
  obtain ⟨h1, h2⟩ := idle_run (s := init Q W) hf (by intro tx c hx; simp [init] at hx) h
  exact ⟨h1, by rw [h2]; rfl⟩

/-- The state right after a successful send. -/
theorem send_waits {m m' : St Q W} {who : W} {peer : Q} {timeout : Option Nat} (hw : m.txId + 1 < 2^64) (hidle : Idle m who)
    (h : step m (.send who peer timeout 0) = .ok m') :
    ∃ tc, Waits m' (m.txId + 1) ⟨who, tc, peer⟩ ∧ m'.done = m.done ∧ m'.due = m.due ∧
      (match timeout with
      | none => m'.timer = m.timer
      | some n => setTimeout m.timer n (some (m.txId + 1)) = .ok (m'.timer, tc)) := by
  have key : ∀ (tc : Cancel) (s'' : St Q W), s''.calls = m.calls.insert (m.txId + 1) ⟨who, tc, peer⟩ →
      Waits s'' (m.txId + 1) ⟨who, tc, peer⟩ := by
    intro tc s'' hs''
    constructor
    · rw [hs'', OMap.find_insert_self]
    · intro tx' c' hx he
      rw [hs'', OMap.find_insert] at hx
      split at hx
      · rename_i e; exact e.symm
      · exact absurd he (hidle tx' c' hx)
  simp only [step, send, Nat.mod_eq_of_lt hw, ne_eq, not_true, if_false] at h
  cases timeout with
  | none =>
    simp only [Out.pure_eq, Out.ok.injEq] at h
    subst h
    exact ⟨noCancel, key _ _ rfl, rfl, rfl, rfl⟩
  | some n =>
    simp only at h
    obtain ⟨⟨t, tc⟩, h1, h2⟩ := Out.bind_eq_ok.mp h
    simp only [Out.pure_eq, Out.ok.injEq] at h2
    subst h2
    exact ⟨tc, key _ _ rfl, rfl, rfl, h1⟩

/-! ### Theorems -/

/-- C38: the callback of a request that was sent is run exactly when the first of these happens: the peer answers that request, its
timeout runs, the peer is reset; it is run once, with the corresponding result, and never again. Nothing else runs it: in particular no
answer from another peer. `sends pre + 1` is the number the request got. -/
theorem C38_outcome (pre post : List (Ev Q W)) (who : W) (peer : Q) (timeout : Option Nat) (s : St Q W)
    (hb : sends pre + sends post + 2 < 2^64) (hpre : Fresh who pre) (hpost : Fresh who post)
    (h : Run (init Q W) (pre ++ .send who peer timeout 0 :: post) s) :
    calledWith s who = (verdict (sends pre + 1) peer post).toList := by
  obtain ⟨m, h1, h2⟩ := h.split
  obtain ⟨hi, hid⟩ := run_inv inv_init (by simp only [init]; omega) h1
  obtain ⟨hidle, hnone⟩ := fresh_init hpre h1
  simp only [init, Nat.zero_add] at hid
  cases h2 with
  | cons ha h3 hr =>
    have hid' := step_txId (by simp only [sends]; omega) h3
    simp only [sends] at hid'
    obtain ⟨tc, hw, hd, _⟩ := send_waits (by omega) hidle h3
    obtain ⟨h4, _⟩ := waits_run (step_inv hi (by omega) h3) (by omega) hpost hw hr
    rw [hid] at h4
    simp only [calledWith, hd] at h4 hnone ⊢
    rw [h4, hnone]
    rfl

/-- C38: if the request could not be sent, its callback is run once with that error, and never again. -/
theorem C38_unsent (pre post : List (Ev Q W)) (who : W) (peer : Q) (timeout : Option Nat) (err : Nat) (s : St Q W)
    (herr : err ≠ 0) (hpre : Fresh who pre) (hpost : Fresh who post)
    (h : Run (init Q W) (pre ++ .send who peer timeout err :: post) s) :
    calledWith s who = [.unsent err] := by
  obtain ⟨m, h1, h2⟩ := h.split
  obtain ⟨hidle, hnone⟩ := fresh_init hpre h1
  cases h2 with
  | cons ha h3 hr =>
    simp only [step, send, ne_eq, herr, not_false_eq_true, if_true, Out.pure_eq, Out.ok.injEq] at h3
    subst h3
    obtain ⟨_, h4⟩ := idle_run hpost (s := { m with txId := (m.txId + 1) % 2^64, done := m.done ++ [(who, .unsent err)] })
      hidle hr
    rw [h4]
    simp only [calledWith, List.filter_append, List.map_append] at hnone ⊢
    rw [hnone]
    simp

/-! ### Timeouts -/

/-- The closures of request `tx` are registered at tick `T` at most and due only from then on. -/
structure Held (s : St Q W) (tx : Nat) (T : Option Int) : Prop where
  look : ∀ t g, Timeout.look s.timer t g = some (some tx) → T = some t
  due : tx ∈ s.due → ∃ t, T = some t ∧ t ≤ s.timer.ticks

/-- A waiting call with a timeout has its closure registered or due. -/
def Armed (s : St Q W) (tx : Nat) (tc : Cancel) : Prop :=
  ∀ c, s.calls.find tx = some c → c.cancel = tc ∧ (look s.timer tc.atTick tc.cancelId = some (some tx) ∨ tx ∈ s.due)

theorem step_ticks {s s' : St Q W} {e : Ev Q W} (h : step s e = .ok s') : s'.timer.ticks = s.timer.ticks + ticks [e] := by
  cases e with
  | send who peer timeout err =>
    simp only [step, send] at h
    split at h
    · simp only [Out.pure_eq, Out.ok.injEq] at h; subst h; simp [ticks]
    · cases timeout with
      | none => simp only [Out.pure_eq, Out.ok.injEq] at h; subst h; simp [ticks]
      | some n =>
        simp only at h
        obtain ⟨⟨t, tc⟩, h1, h2⟩ := Out.bind_eq_ok.mp h
        simp only [Out.pure_eq, Out.ok.injEq] at h2
        subst h2
        simp [ticks, (set_spec h1).1]
  | respond sender tx status =>
    simp only [step, Out.pure_eq, Out.ok.injEq] at h
    subst h
    unfold respond
    split
    · simp [ticks]
    · split
      · simp [ticks]
      · simp [ticks, (cancel_spec _ _).1]
  | tick =>
    simp only [step] at h
    obtain ⟨⟨t, tc⟩, h1, h2⟩ := Out.bind_eq_ok.mp h
    simp only [Out.pure_eq, Out.ok.injEq] at h2
    subst h2
    simp [ticks, (tick_spec h1).1]
  | expire tx =>
    simp only [step, Out.pure_eq, Out.ok.injEq] at h
    subst h
    unfold expire
    split <;> simp [ticks]
  | reset peer =>
    simp only [step, Out.pure_eq, Out.ok.injEq] at h
    subst h
    simp [ticks, reset, (less_fold _ _).ticks]
  | otherSet n =>
    simp only [step] at h
    obtain ⟨⟨t, tc⟩, h1, h2⟩ := Out.bind_eq_ok.mp h
    simp only [Out.pure_eq, Out.ok.injEq] at h2
    subst h2
    simp [ticks, (set_spec h1).1]
  | otherCancel i =>
    simp only [step] at h
    split at h
    · simp only [Out.pure_eq, Out.ok.injEq] at h; subst h; simp [ticks]
    · simp only [Out.pure_eq, Out.ok.injEq] at h; subst h; simp [ticks, (cancel_spec _ _).1]

theorem ticks_cons (e : Ev Q W) (es : List (Ev Q W)) : ticks (e :: es) = ticks [e] + ticks es := by
  cases e <;> simp [ticks]; omega

/-- Steps that only cancel timeouts and run closures. -/
theorem Held.shrink {s s' : St Q W} {tx : Nat} {T : Option Int} (h : Held s tx T) (ht : Less s.timer s'.timer)
    (hd : tx ∈ s'.due → tx ∈ s.due) : Held s' tx T where
  look := fun t g hl => h.look t g (ht.sub _ _ _ hl)
  due := fun hm => by rw [ht.ticks]; exact h.due (hd hm)

theorem held_step {s s' : St Q W} {e : Ev Q W} {tx : Nat} {T : Option Int} (hw : s.txId + 1 < 2^64) (htx : tx ≤ s.txId)
    (h : Held s tx T) (hs : step s e = .ok s') : Held s' tx T := by
  have hset : ∀ {t tc} {n : Int} {f : Option Nat} (s'' : St Q W), f ≠ some tx → setTimeout s.timer n f = .ok (t, tc) → s''.timer = t →
      s''.due = s.due → Held s'' tx T := by
    intro t tc n f s'' hf h1 ht hd
    obtain ⟨e1, e2, e3, e4⟩ := set_spec h1
    constructor
    · intro a b hl
      rw [ht, e4] at hl
      split at hl
      · exact absurd (Option.some.inj hl) hf
      · exact h.look a b hl
    · rw [ht, e1, hd]; exact h.due
  cases e with
  | send who peer timeout err =>
    simp only [step, send, Nat.mod_eq_of_lt hw] at hs
    split at hs
    · simp only [Out.pure_eq, Out.ok.injEq] at hs; subst hs; exact ⟨h.look, h.due⟩
    · cases timeout with
      | none => simp only [Out.pure_eq, Out.ok.injEq] at hs; subst hs; exact ⟨h.look, h.due⟩
      | some n =>
        simp only at hs
        obtain ⟨⟨t, tc⟩, h1, h2⟩ := Out.bind_eq_ok.mp hs
        simp only [Out.pure_eq, Out.ok.injEq] at h2
        subst h2
        refine hset _ ?_ h1 rfl rfl
        intro x
        have := Option.some.inj x
        omega
  | respond sender tx status =>
    simp only [step, Out.pure_eq, Out.ok.injEq] at hs
    subst hs
    unfold respond
    split
    · exact h
    · split
      · exact h
      · exact h.shrink (less_cancel _ _) (fun x => x)
  | tick =>
    simp only [step] at hs
    obtain ⟨⟨t, l⟩, h1, h2⟩ := Out.bind_eq_ok.mp hs
    simp only [Out.pure_eq, Out.ok.injEq] at h2
    subst h2
    obtain ⟨e1, e2, e3, _⟩ := tick_spec h1
    constructor
    · intro a b hl
      simp only [e3] at hl
      split at hl
      · cases hl
      · exact h.look a b hl
    · intro hm
      simp only [List.mem_append, List.mem_filterMap] at hm
      simp only [e1]
      rcases hm with hm | ⟨⟨g, f⟩, hm, hf⟩
      · obtain ⟨x, hx, hle⟩ := h.due hm
        exact ⟨x, hx, by omega⟩
      · simp only at hf
        subst hf
        exact ⟨_, h.look _ _ ((mem_tick h1 g _).mp hm), Int.le_refl _⟩
  | expire tx =>
    simp only [step, Out.pure_eq, Out.ok.injEq] at hs
    subst hs
    unfold expire
    split
    · exact h.shrink (.refl _) List.mem_of_mem_erase
    · exact h.shrink (.refl _) List.mem_of_mem_erase
  | reset peer =>
    simp only [step, Out.pure_eq, Out.ok.injEq] at hs
    subst hs
    exact h.shrink (less_fold _ _) (fun x => x)
  | otherSet n =>
    simp only [step] at hs
    obtain ⟨⟨t, tc⟩, h1, h2⟩ := Out.bind_eq_ok.mp hs
    simp only [Out.pure_eq, Out.ok.injEq] at h2
    subst h2
    exact hset _ (fun x => by cases x) h1 rfl rfl
  | otherCancel i =>
    simp only [step] at hs
    split at hs
    · simp only [Out.pure_eq, Out.ok.injEq] at hs; subst hs; exact h
    · simp only [Out.pure_eq, Out.ok.injEq] at hs; subst hs; exact h.shrink (less_cancel _ _) (fun x => x)

theorem held_run : ∀ {es : List (Ev Q W)} {s s' : St Q W} {tx : Nat} {T : Option Int}, s.txId + sends es + 1 < 2^64 → tx ≤ s.txId →
    Held s tx T → Run s es s' → Held s' tx T ∧ s'.timer.ticks = s.timer.ticks + ticks es
  | [], s, s', tx, T, _, _, hh, h => by cases h; exact ⟨hh, by simp [ticks]⟩
  | e :: es, s, s', tx, T, hb, ht, hh, h => by
    cases h with
    | cons ha h1 hr =>
      rw [sends_cons] at hb
      have h2 := step_txId (by omega) h1
      obtain ⟨h3, h4⟩ := held_run (by omega) (by omega) (held_step (by omega) ht hh h1) hr
      refine ⟨h3, ?_⟩
      rw [h4, step_ticks h1, ticks_cons e es]
      push_cast
      omega

/-- Right after a send. -/
theorem send_held {m m' : St Q W} {who : W} {peer : Q} {timeout : Option Nat} (hi : Inv m) (hw : m.txId + 1 < 2^64)
    (hidle : Idle m who) (h : step m (.send who peer timeout 0) = .ok m') :
    Held m' (m.txId + 1) (timeout.map (fun n : Nat => m.timer.ticks + max 1 (n : Int))) := by
  obtain ⟨tc, _, _, hd, ht⟩ := send_waits hw hidle h
  have hdue : m.txId + 1 ∉ m.due := fun x => by have := hi.dueOld _ x; omega
  have hlook : ∀ t g, look m.timer t g ≠ some (some (m.txId + 1)) := fun t g x => by have := hi.old _ _ _ x; omega
  constructor
  · intro t g hl
    cases timeout with
    | none => simp only at ht; rw [ht] at hl; exact absurd hl (hlook t g)
    | some n =>
      obtain ⟨e1, e2, e3, e4⟩ := set_spec ht
      rw [e4] at hl
      split at hl
      · rename_i e
        rw [e.1, e3]
        rfl
      · exact absurd hl (hlook t g)
  · rw [hd]
    exact fun x => absurd x hdue

/-- C38: the timeout of a request runs only if it was sent with one, and only after that many ticks (at least one). -/
theorem C38_not_early (pre mid post : List (Ev Q W)) (who : W) (peer : Q) (timeout : Option Nat) (s : St Q W)
    (hb : sends pre + sends mid + sends post + 2 < 2^64) (hpre : Fresh who pre)
    (h : Run (init Q W) (pre ++ .send who peer timeout 0 :: mid ++ .expire (sends pre + 1) :: post) s) :
    ∃ n, timeout = some n ∧ max 1 n ≤ ticks mid := by
  rw [List.append_assoc, List.cons_append] at h
  obtain ⟨m, h1, h2⟩ := h.split
  obtain ⟨hi, hid⟩ := run_inv inv_init (by simp only [init]; omega) h1
  obtain ⟨hidle, _⟩ := fresh_init hpre h1
  simp only [init, Nat.zero_add] at hid
  cases h2 with
  | cons ha h3 hr =>
    have hid' := step_txId (by simp only [sends]; omega) h3
    simp only [sends] at hid'
    have hh := send_held hi (by omega) hidle h3
    have ht := step_ticks h3
    obtain ⟨m2, h4, h5⟩ := hr.split
    obtain ⟨h6, h7⟩ := held_run (by omega) (by omega) hh h4
    cases h5 with
    | cons ha' _ _ =>
      simp only [Able] at ha'
      rw [← hid] at ha'
      obtain ⟨t, e1, e2⟩ := h6.due ha'
      cases timeout with
      | none => cases e1
      | some n =>
        simp only [Option.map_some, Option.some.injEq] at e1
        simp only [ticks] at ht
        refine ⟨n, rfl, ?_⟩
        omega

/-- An event keeps a call armed. -/
theorem armed_step {s s' : St Q W} {e : Ev Q W} {tx : Nat} {tc : Cancel} (hi : Inv s) (hw : s.txId + 1 < 2^64) (htx : tx ≤ s.txId)
    (h : Armed s tx tc) (hs : step s e = .ok s') : Armed s' tx tc := by
  have hset : ∀ {t tc'} {n : Int} {f : Option Nat} (s'' : St Q W), setTimeout s.timer n f = .ok (t, tc') → s''.timer = t →
      (∀ c, s''.calls.find tx = some c → s.calls.find tx = some c) → s''.due = s.due → Armed s'' tx tc := by
    intro t tc' n f s'' h1 ht hc hd c hx
    obtain ⟨e1, e2, e3, e4⟩ := set_spec h1
    obtain ⟨k1, k2⟩ := h c (hc c hx)
    refine ⟨k1, ?_⟩
    rcases k2 with k2 | k2
    · left
      rw [ht, e4, if_neg]
      · exact k2
      · rintro ⟨_, x⟩
        have := hi.id tx c (hc c hx)
        rw [k1, x, e3] at this
        simp only at this
        omega
    · right; rw [hd]; exact k2
  cases e with
  | send who peer timeout err =>
    have hne : ∀ (cn c : Call Q W), (s.calls.insert (s.txId + 1) cn).find tx = some c → s.calls.find tx = some c := by
      intro cn c hx
      rwa [OMap.find_insert_ne _ _ (by omega)] at hx
    simp only [step, send, Nat.mod_eq_of_lt hw] at hs
    split at hs
    · simp only [Out.pure_eq, Out.ok.injEq] at hs; subst hs; exact h
    · cases timeout with
      | none =>
        simp only [Out.pure_eq, Out.ok.injEq] at hs
        subst hs
        exact fun c hx => h c (hne _ c hx)
      | some n =>
        simp only at hs
        obtain ⟨⟨t, tc'⟩, h1, h2⟩ := Out.bind_eq_ok.mp hs
        simp only [Out.pure_eq, Out.ok.injEq] at h2
        subst h2
        exact hset _ h1 rfl (hne _) rfl
  | respond sender tx' status =>
    simp only [step, Out.pure_eq, Out.ok.injEq] at hs
    subst hs
    unfold respond
    split
    · exact h
    · rename_i c' hc'
      split
      · exact h
      · intro c hx
        simp only [OMap.find_erase] at hx
        split at hx
        · cases hx
        · rename_i hne
          obtain ⟨k1, k2⟩ := h c hx
          refine ⟨k1, ?_⟩
          rcases k2 with k2 | k2
          · left
            simp only [(cancel_spec _ _).2.2]
            rw [if_neg]
            · exact k2
            · rintro ⟨x1, x2⟩
              rw [x1, x2] at k2
              exact hne (Option.some.inj (hi.own _ _ _ hc' k2)).symm
          · exact .inr k2
  | tick =>
    simp only [step] at hs
    obtain ⟨⟨t, l⟩, h1, h2⟩ := Out.bind_eq_ok.mp hs
    simp only [Out.pure_eq, Out.ok.injEq] at h2
    subst h2
    obtain ⟨e1, e2, e3, _⟩ := tick_spec h1
    intro c hx
    obtain ⟨k1, k2⟩ := h c hx
    refine ⟨k1, ?_⟩
    rcases k2 with k2 | k2
    · by_cases ht : tc.atTick = s.timer.ticks + 1
      · right
        simp only [List.mem_append, List.mem_filterMap]
        right
        rw [ht] at k2
        exact ⟨(tc.cancelId, some tx), (mem_tick h1 _ _).mpr k2, rfl⟩
      · left
        simp only [e3]
        rw [if_neg ht]
        exact k2
    · right
      simp only [List.mem_append]
      exact .inl k2
  | expire tx' =>
    simp only [step, Out.pure_eq, Out.ok.injEq] at hs
    subst hs
    by_cases ht : tx' = tx
    · subst ht
      intro c hx
      cases hc : s.calls.find tx' with
      | none => simp [expire, hc] at hx
      | some c' => simp [expire, hc] at hx
    · have hkeep : ∀ c, (expire s tx').calls.find tx = some c → s.calls.find tx = some c := by
        intro c hx
        unfold expire at hx
        split at hx
        · exact hx
        · simp only [OMap.find_erase, if_neg ht] at hx; exact hx
      intro c hx
      obtain ⟨k1, k2⟩ := h c (hkeep c hx)
      refine ⟨k1, ?_⟩
      have hdue : tx ∈ s.due → tx ∈ s.due.erase tx' := fun hm => (List.mem_erase_of_ne (fun x => ht x.symm)).mpr hm
      unfold expire
      split
      · exact k2.imp id hdue
      · exact k2.imp id hdue
  | reset peer =>
    simp only [step, Out.pure_eq, Out.ok.injEq] at hs
    subst hs
    intro c hx
    simp only [reset, OMap.find_filterMapV] at hx
    cases hf : s.calls.find tx with
    | none => rw [hf] at hx; simp at hx
    | some c' =>
      rw [hf] at hx
      simp only [Option.bind_some] at hx
      split at hx
      · cases hx
      · rename_i hn
        cases hx
        obtain ⟨k1, k2⟩ := h c hf
        refine ⟨k1, ?_⟩
        rcases k2 with k2 | k2
        · left
          refine fold_keeps _ _ _ _ _ k2 ?_
          rintro ⟨x, cx⟩ hm he
          simp only at he
          obtain ⟨hm1, hm2⟩ := List.mem_filter.mp hm
          have hfx := OMap.mem_list.mp hm1
          have : some tx = some x := hi.own x cx _ hfx (by rw [he]; exact k2)
          cases this
          rw [hf] at hfx
          cases hfx
          simp only [decide_eq_true_eq] at hm2
          exact hn hm2
        · exact .inr k2
  | otherSet n =>
    simp only [step] at hs
    obtain ⟨⟨t, tc'⟩, h1, h2⟩ := Out.bind_eq_ok.mp hs
    simp only [Out.pure_eq, Out.ok.injEq] at h2
    subst h2
    exact hset _ h1 rfl (fun _ x => x) rfl
  | otherCancel i =>
    simp only [step] at hs
    split at hs
    · simp only [Out.pure_eq, Out.ok.injEq] at hs; subst hs; exact h
    · rename_i tc' htc'
      simp only [Out.pure_eq, Out.ok.injEq] at hs
      subst hs
      intro c hx
      obtain ⟨k1, k2⟩ := h c hx
      refine ⟨k1, ?_⟩
      rcases k2 with k2 | k2
      · left
        simp only [(cancel_spec _ _).2.2]
        rw [if_neg]
        · exact k2
        · rintro ⟨x1, x2⟩
          rw [x1, x2] at k2
          cases hi.oown _ (List.mem_of_getElem? htc') _ k2
      · exact .inr k2

theorem armed_run : ∀ {es : List (Ev Q W)} {s s' : St Q W} {tx : Nat} {tc : Cancel}, Inv s → s.txId + sends es + 1 < 2^64 →
    tx ≤ s.txId → Armed s tx tc → Run s es s' → Armed s' tx tc
  | [], s, s', tx, tc, _, _, _, ha, h => by cases h; exact ha
  | e :: es, s, s', tx, tc, hi, hb, ht, ha, h => by
    cases h with
    | cons hab h1 hr =>
      rw [sends_cons] at hb
      have h2 := step_txId (by omega) h1
      exact armed_run (step_inv hi (by omega) h1) (by omega) (by omega) (armed_step hi (by omega) ht ha h1) hr

/-- C38: a request sent with a timeout is over once that many ticks (at least one) have passed and no closure of it taken out by a tick
is still to be run: its callback has been run, exactly once. -/
theorem C38_times_out (pre post : List (Ev Q W)) (who : W) (peer : Q) (n : Nat) (s : St Q W)
    (hb : sends pre + sends post + 2 < 2^64) (hpre : Fresh who pre) (hpost : Fresh who post)
    (h : Run (init Q W) (pre ++ .send who peer (some n) 0 :: post) s) (ht : max 1 n ≤ ticks post) (hd : sends pre + 1 ∉ s.due) :
    ∃ r, calledWith s who = [r] ∧ verdict (sends pre + 1) peer post = some r := by
  have hout := C38_outcome pre post who peer (some n) s hb hpre hpost h
  suffices hv : verdict (sends pre + 1) peer post ≠ none by
    obtain ⟨r, hr⟩ := Option.ne_none_iff_exists'.mp hv
    exact ⟨r, by rw [hout, hr]; rfl, hr⟩
  intro hv
  obtain ⟨m, h1, h2⟩ := h.split
  obtain ⟨hi, hid⟩ := run_inv inv_init (by simp only [init]; omega) h1
  obtain ⟨hidle, _⟩ := fresh_init hpre h1
  simp only [init, Nat.zero_add] at hid
  cases h2 with
  | @cons _ s1 _ _ _ ha h3 hr =>
    have hid' := step_txId (by simp only [sends]; omega) h3
    simp only [sends] at hid'
    obtain ⟨tc, hw, _, _, hset⟩ := send_waits (by omega) hidle h3
    simp only at hset
    obtain ⟨e1, e2, e3, e4⟩ := set_spec hset
    have hi' := step_inv hi (by omega) h3
    obtain ⟨_, hcall⟩ := waits_run hi' (by omega) hpost hw hr
    rw [hid] at hcall
    have hstill := hcall hv
    have harm : Armed s1 (m.txId + 1) tc := by
      intro c hx
      rw [hw.here] at hx
      cases hx
      exact ⟨rfl, .inl (by rw [e4]; simp)⟩
    have harm' := armed_run hi' (by omega) (by omega) harm hr
    rw [hid] at harm'
    obtain ⟨_, hl | hl⟩ := harm' _ hstill
    · have hinv := (run_inv hi' (by omega) hr).1
      have hlt := (hinv.timer _ _ _ hl).1
      have hh := send_held hi (by omega) hidle h3
      have htk := (held_run (by omega) (by omega) hh hr).2
      rw [htk, e1, e3] at hlt
      simp only at hlt
      omega
    · exact hd hl

/-! ### No overflow -/

/-- Timeouts are `uint32` in the configuration (`e2e_txn_timeout_ticks`, shared/proto/msgs.proto); the other users of the timer are
assumed to stay within the same range. -/
def Small : Ev Q W → Prop
  | .send _ _ (some n) _ => n < 2^32
  | .otherSet n => 0 ≤ n ∧ n < 2^32
  | _ => True

theorem set_ok {t : Timeout.St (Option Nat)} {n : Int} {f : Option Nat} (h0 : 0 ≤ n) (hn : n < 2^32) (ht0 : 0 ≤ t.ticks)
    (ht : t.ticks < 2^62) (hg0 : 0 ≤ t.gen) (hg : t.gen < 2^62) : ∃ r, setTimeout t n f = .ok r := by
  have hm : (I64MAX : Int) = 9223372036854775807 := by decide
  have hm' : (I64MIN : Int) = -9223372036854775808 := by decide
  have a1 : ∀ a b : Int, 0 ≤ a → a ≤ 2^62 → 0 ≤ b → b < 2^62 → add64 a b = .ok (a + b) := by
    intro a b ha ha' hb hb'
    unfold add64
    rw [if_neg]
    rw [hm, hm']
    omega
  unfold setTimeout
  rw [a1 n t.ticks h0 (by omega) ht0 ht]
  simp only [Out.bind_ok]
  have hn' : 0 ≤ (if n + t.ticks ≤ t.ticks then (1 : Int) else n) ∧ (if n + t.ticks ≤ t.ticks then (1 : Int) else n) < 2^32 ∧
      0 < (if n + t.ticks ≤ t.ticks then (1 : Int) else n) := by split <;> omega
  rw [a1 _ t.ticks hn'.1 (by omega) ht0 ht]
  simp only [Out.bind_ok]
  have : decide ((if n + t.ticks ≤ t.ticks then (1 : Int) else n) + t.ticks > t.ticks) = true := by
    simp only [decide_eq_true_eq]; omega
  rw [this]
  simp only [Out.check, if_true, Out.bind_ok]
  rw [a1 _ 1 hg0 (by omega) (by omega) (by omega)]
  exact ⟨_, rfl⟩

theorem step_gen {s s' : St Q W} {e : Ev Q W} (h : step s e = .ok s') :
    s'.timer.gen = s.timer.gen ∨ s'.timer.gen = s.timer.gen + 1 := by
  cases e with
  | send who peer timeout err =>
    simp only [step, send] at h
    split at h
    · simp only [Out.pure_eq, Out.ok.injEq] at h; subst h; simp
    · cases timeout with
      | none => simp only [Out.pure_eq, Out.ok.injEq] at h; subst h; simp
      | some n =>
        simp only at h
        obtain ⟨⟨t, tc⟩, h1, h2⟩ := Out.bind_eq_ok.mp h
        simp only [Out.pure_eq, Out.ok.injEq] at h2
        subst h2
        simp [(set_spec h1).2.1]
  | respond sender tx status =>
    simp only [step, Out.pure_eq, Out.ok.injEq] at h
    subst h
    unfold respond
    split
    · simp
    · split
      · simp
      · simp [(cancel_spec _ _).2.1]
  | tick =>
    simp only [step] at h
    obtain ⟨⟨t, tc⟩, h1, h2⟩ := Out.bind_eq_ok.mp h
    simp only [Out.pure_eq, Out.ok.injEq] at h2
    subst h2
    simp [(tick_spec h1).2.1]
  | expire tx =>
    simp only [step, Out.pure_eq, Out.ok.injEq] at h
    subst h
    unfold expire
    split <;> simp
  | reset peer =>
    simp only [step, Out.pure_eq, Out.ok.injEq] at h
    subst h
    simp [reset, (less_fold _ _).gen]
  | otherSet n =>
    simp only [step] at h
    obtain ⟨⟨t, tc⟩, h1, h2⟩ := Out.bind_eq_ok.mp h
    simp only [Out.pure_eq, Out.ok.injEq] at h2
    subst h2
    simp [(set_spec h1).2.1]
  | otherCancel i =>
    simp only [step] at h
    split at h
    · simp only [Out.pure_eq, Out.ok.injEq] at h; subst h; simp
    · simp only [Out.pure_eq, Out.ok.injEq] at h; subst h; simp [(cancel_spec _ _).2.1]

theorem run_bounds : ∀ {es : List (Ev Q W)} {s s' : St Q W}, Run s es s' →
    s.timer.ticks ≤ s'.timer.ticks ∧ s'.timer.ticks ≤ s.timer.ticks + es.length ∧ s'.timer.gen ≤ s.timer.gen + es.length
  | [], s, s', h => by cases h; simp
  | e :: es, s, s', h => by
    cases h with
    | cons ha h1 hr =>
      have h2 := step_ticks h1
      have h3 := step_gen h1
      obtain ⟨h4, h5, h6⟩ := run_bounds hr
      have : ticks [e] ≤ 1 := by cases e <;> simp [ticks]
      simp only [List.length_cons]
      push_cast
      omega

/-- C38: no sequence of these events ends in an abort or undefined behaviour, for anything short of `2^62` events. -/
theorem C38_always_defined (es : List (Ev Q W)) (s : St Q W) (e : Ev Q W) (hlen : es.length < 2^62) (he : Small e)
    (h : Run (init Q W) es s) : ∃ s', step s e = .ok s' := by
  obtain ⟨b1, b2, b3⟩ := run_bounds h
  have hsend : ∀ es : List (Ev Q W), sends es ≤ es.length := by
    intro es
    induction es with
    | nil => simp [sends]
    | cons e es ih => cases e <;> simp [sends] <;> omega
  have hpos := (run_inv inv_init (by have := hsend es; simp only [init]; omega) h).1.pos
  simp only [init, Timeout.init, Int.zero_add] at b1 b2 b3
  have hT : s.timer.ticks < 2^62 := by omega
  have hG : s.timer.gen < 2^62 := by omega
  cases e with
  | send who peer timeout err =>
    simp only [step, send]
    split
    · exact ⟨_, rfl⟩
    · cases timeout with
      | none => exact ⟨_, rfl⟩
      | some n =>
        simp only [Small] at he
        obtain ⟨⟨t, tc⟩, h1⟩ := set_ok (t := s.timer) (n := n) (f := some ((s.txId + 1) % 2^64)) (by omega) (by omega) hpos.1 hT hpos.2 hG
        simp only [h1, Out.bind_ok]
        exact ⟨_, rfl⟩
  | respond sender tx status => exact ⟨_, rfl⟩
  | tick =>
    have hm : (I64MAX : Int) = 9223372036854775807 := by decide
    have hm' : (I64MIN : Int) = -9223372036854775808 := by decide
    have : add64 s.timer.ticks 1 = .ok (s.timer.ticks + 1) := by
      unfold add64
      rw [if_neg]
      rw [hm, hm']
      omega
    simp only [step, timerTick, this, Out.bind_ok]
    cases s.timer.timeouts.find (s.timer.ticks + 1) <;> exact ⟨_, rfl⟩
  | expire tx => exact ⟨_, rfl⟩
  | reset peer => exact ⟨_, rfl⟩
  | otherSet n =>
    simp only [Small] at he
    obtain ⟨⟨t, tc⟩, h1⟩ := set_ok (t := s.timer) (n := n) (f := none) he.1 he.2 hpos.1 hT hpos.2 hG
    simp only [step, h1, Out.bind_ok]
    exact ⟨_, rfl⟩
  | otherCancel i =>
    simp only [step]
    split <;> exact ⟨_, rfl⟩

/-! ### Examples -/

/-- Three requests race: callback 0 (to peer 7, timeout 2) gets a wrong peer's answer, then its tick passes, then the peer's answer comes
before the closure runs; callback 1 (to peer 8) is reset; callback 2 cannot be sent. -/
def raceEvents : List (Ev Nat Nat) :=
  [.otherSet 1, .send 0 7 (some 2) 0, .send 1 8 none 0, .send 2 7 (some 1) 5, .respond 8 1 0, .tick, .otherCancel 0, .tick,
    .respond 7 1 3, .expire 1, .reset 8, .respond 8 2 0]

example : (play (init Nat Nat) raceEvents).map (fun s => (calledWith s 0, calledWith s 1, calledWith s 2)) =
    some ([.response 3], [.reset], [.unsent 5]) := by decide +kernel

example : ∃ s, Run (init Nat Nat) ([.otherSet 1] ++ .send 0 7 (some 2) 0 :: raceEvents.drop 2) s ∧ Fresh 0 (raceEvents.drop 2) ∧
    max 1 2 ≤ ticks (raceEvents.drop 2) ∧ sends ([.otherSet 1] : List (Ev Nat Nat)) + 1 ∉ s.due ∧ calledWith s 0 = [.response 3] := by
  have h : (play (init Nat Nat) raceEvents).isSome = true := by decide +kernel
  obtain ⟨s, hs⟩ := Option.isSome_iff_exists.mp h
  have hk : (play (init Nat Nat) raceEvents).map (fun s => (s.due, calledWith s 0)) = some ([], [.response 3]) := by decide +kernel
  rw [hs] at hk
  simp only [Option.map_some, Option.some.injEq, Prod.mk.injEq] at hk
  refine ⟨s, play_run hs, ?_, by decide, by rw [hk.1]; simp, hk.2⟩
  intro e he peer t err
  simp only [raceEvents, List.drop_succ_cons, List.drop_zero, List.mem_cons, List.not_mem_nil, or_false] at he
  rcases he with rfl | rfl | rfl | rfl | rfl | rfl | rfl | rfl | rfl | rfl <;> simp

/-- A timeout that does run. -/
def slowEvents : List (Ev Nat Nat) := [.send 0 7 (some 2) 0, .tick, .tick, .expire 1, .respond 7 1 0]

example : (play (init Nat Nat) slowEvents).map (fun s => calledWith s 0) = some [.timeout] := by decide +kernel

end Svr.Props.E2E
