import Verif.Core.Host
import Mathlib.Data.List.Basic

/-! # Joining: what holds as long as no replication is under way when a replica is told to join -/

namespace Svr.Core.Host

/-- The parts that responses to the host do not touch. -/
structure Same (s t : St) : Prop where
  tag : t.tag = s.tag
  waitPeer : t.waitPeer = s.waitPeer
  waitTx : t.waitTx = s.waitTx
  loading : t.loading = s.loading
  loaded : t.loaded = s.loaded
  ended : t.ended = s.ended
  calls : t.calls = s.calls
  lastCall : t.lastCall = s.lastCall
  logs : t.logs = s.logs
  lastTimer : t.lastTimer = s.lastTimer

theorem Same.trans {s t u : St} (a : Same s t) (b : Same t u) : Same s u :=
  ⟨b.tag.trans a.tag, b.waitPeer.trans a.waitPeer, b.waitTx.trans a.waitTx, b.loading.trans a.loading, b.loaded.trans a.loaded,
    b.ended.trans a.ended, b.calls.trans a.calls, b.lastCall.trans a.lastCall, b.logs.trans a.logs, b.lastTimer.trans a.lastTimer⟩

theorem Same.rfl (s : St) : Same s s := ⟨.refl _, .refl _, .refl _, .refl _, .refl _, .refl _, .refl _, .refl _, .refl _, .refl _⟩

theorem same_say (s : St) (tx : Nat) (r : Rep) : Same s (s.say tx r) :=
  ⟨.refl _, .refl _, .refl _, .refl _, .refl _, .refl _, .refl _, .refl _, .refl _, .refl _⟩

theorem same_logDone (s : St) (cb : LogCb) (e o : Nat) : Same s (s.logDone cb e o) := by
  cases cb <;> exact ⟨.refl _, .refl _, .refl _, .refl _, .refl _, .refl _, .refl _, .refl _, .refl _, .refl _⟩

theorem same_fail (s : St) (cb : Cb) (e : Nat) : Same s (s.fail cb e) := by
  cases cb with
  | write cb => exact same_logDone s cb e 0
  | membership _ _ => exact .rfl s
  | push => exact .rfl s
  | stamp => exact .rfl s
  | _ => exact same_say ..

theorem same_failAll (e : Nat) : ∀ (l : List Call) (s : St), Same s (l.foldl (fun t c => t.fail c.cb e) s)
  | [], s => .rfl s
  | c :: l, s => (same_fail s c.cb e).trans (same_failAll e l _)

theorem same_logAll (e : Nat) : ∀ (l : List LogCb) (s : St), Same s (l.foldl (fun t cb => t.logDone cb e 0) s)
  | [], s => .rfl s
  | c :: l, s => (same_logDone s c e 0).trans (same_logAll e l _)

/-- A callback that does not depend on what `raft_` holds. -/
def Plain (cb : Cb) : Prop := cb ≠ .push ∧ ∀ tx, cb ≠ .replicate tx

/-- What holds between any two steps. -/
structure Inv (s : St) : Prop where
  load : s.tag = .loading → s.loading.log = true ∧ s.loading.db = true ∧ s.loading.mem = true
  held : s.tag = .requesting ∨ s.tag = .part → ∃ o, s.loaded = some o ∧ ∀ id, o = .copy id → id ∈ s.ended
  repl : ∀ c ∈ s.calls, ∀ tx, c.cb = .replicate tx → s.tag = .loading ∧ s.loading.id = c.id ∧ s.loading.started = true
  push : ∀ c ∈ s.calls, c.cb = .push → s.tag = .requesting ∨ s.tag = .part

theorem inv_init : Inv init :=
  ⟨(fun h => by cases h), (fun h => by rcases h with h | h <;> cases h), by simp [init], by simp [init]⟩

theorem Inv.mono {s t : St} (i : Inv s) (h1 : t.tag = s.tag) (h2 : t.loading = s.loading) (h3 : t.loaded = s.loaded)
    (h4 : s.ended ⊆ t.ended) (h5 : ∀ c ∈ t.calls, c ∈ s.calls ∨ Plain c.cb) : Inv t where
  load h := by rw [h2]; exact i.load (h1 ▸ h)
  held h := by
    rw [h1] at h
    obtain ⟨o, a, b⟩ := i.held h
    exact ⟨o, h3.trans a, fun id e => h4 (b id e)⟩
  repl c hc tx e := by
    rcases h5 c hc with h | h
    · have := i.repl c h tx e
      rw [h1, h2]; exact this
    · exact absurd e (h.2 tx)
  push c hc e := by
    rcases h5 c hc with h | h
    · rw [h1]; exact i.push c h e
    · exact absurd e h.1

theorem Inv.same {s t : St} (i : Inv s) (h : Same s t) : Inv t :=
  i.mono h.tag h.loading h.loaded (h.ended ▸ fun _ x => x) fun c hc => .inl (h.calls ▸ hc)

/-- What `send` does. -/
structure Sent (s t : St) (peer : Nat) (cb : Cb) : Prop where
  tag : t.tag = s.tag
  waitPeer : t.waitPeer = s.waitPeer
  waitTx : t.waitTx = s.waitTx
  loading : t.loading = s.loading
  loaded : t.loaded = s.loaded
  ended : t.ended = s.ended
  lastCall : t.lastCall = s.lastCall + 1
  calls : t.calls = s.calls ∨ t.calls = s.calls ++ [⟨s.lastCall + 1, peer, cb⟩]
  logs : t.logs = s.logs
  lastTimer : t.lastTimer = s.lastTimer

theorem sent (w : Sends) (s : St) (peer : Nat) (cb : Cb) : Sent s (s.send w peer cb) peer cb := by
  unfold St.send
  simp only
  split
  · have h := same_fail { s with lastCall := s.lastCall + 1 } cb (w (s.lastCall + 1))
    exact ⟨h.tag, h.waitPeer, h.waitTx, h.loading, h.loaded, h.ended, h.lastCall, .inl h.calls, h.logs, h.lastTimer⟩
  · exact ⟨.refl _, .refl _, .refl _, .refl _, .refl _, .refl _, .refl _, .inr (.refl _), .refl _, .refl _⟩

theorem Inv.send {s : St} (i : Inv s) (w : Sends) (p : Nat) {cb : Cb} (h : Plain cb) : Inv (s.send w p cb) := by
  have k := sent w s p cb
  refine i.mono k.tag k.loading k.loaded (k.ended ▸ fun _ x => x) fun c hc => ?_
  rcases k.calls with e | e
  · exact .inl (e ▸ hc)
  · rw [e, List.mem_append, List.mem_singleton] at hc
    exact hc.imp id fun (e : c = _) => by rw [e]; exact h

theorem sendAll_same (w : Sends) (cb : Cb) : ∀ (l : List Nat) (s : St), (s.sendAll w cb l).tag = s.tag ∧
    (s.sendAll w cb l).loading = s.loading ∧ (s.sendAll w cb l).loaded = s.loaded
  | [], s => ⟨.refl _, .refl _, .refl _⟩
  | p :: l, s => by
    have k := sent w s p cb
    have h := sendAll_same w cb l (s.send w p cb)
    exact ⟨h.1.trans k.tag, h.2.1.trans k.loading, h.2.2.trans k.loaded⟩

theorem Inv.sendAll (w : Sends) {cb : Cb} (hc : Plain cb) : ∀ (l : List Nat) {s : St}, Inv s → Inv (s.sendAll w cb l)
  | [], _, i => i
  | p :: l, _, i => Inv.sendAll w hc l (i.send w p hc)

theorem plain_membership (tx t : Nat) : Plain (.membership tx t) := ⟨(fun h => by cases h), (fun _ h => by cases h)⟩
theorem plain_answer (tx : Nat) : Plain (.answer tx) := ⟨(fun h => by cases h), (fun _ h => by cases h)⟩
theorem plain_join (tx p : Nat) : Plain (.join tx p) := ⟨(fun h => by cases h), (fun _ h => by cases h)⟩
theorem plain_write (cb : LogCb) : Plain (.write cb) := ⟨(fun h => by cases h), (fun _ h => by cases h)⟩
theorem plain_stamp : Plain .stamp := ⟨(fun h => by cases h), (fun _ h => by cases h)⟩

theorem inv_requestMembership {s : St} (i : Inv s) (w : Sends) (tx : Nat) (peers : List Nat) (h : s.tag = .requesting) :
    ∃ t, s.requestMembership w tx peers = .ok t ∧ Inv t := by
  obtain ⟨o, ho, _⟩ := i.held (.inl h)
  unfold St.requestMembership
  rw [if_neg (by simp [h]), if_neg (by simp [ho])]
  exact ⟨_, .refl _, Inv.sendAll w (plain_membership ..) peers
    (i.mono (.refl _) (.refl _) (.refl _) (fun _ x => x) fun c hc => .inl hc)⟩

theorem inv_joinFromFirst {s : St} (i : Inv s) (w : Sends) (h : s.tag = .waiting) :
    ∃ t, s.joinFromFirst w = .ok t ∧ Inv t := by
  unfold St.joinFromFirst
  rw [if_neg (by simp [h])]
  exact ⟨_, .refl _, i.send w _ (plain_join ..)⟩

theorem inv_requestReplication {s : St} (i : Inv s) (w : Sends) (q : Bool) (h : s.loading.started = false) :
    ∃ t, s.requestReplication w q = .ok t ∧ Inv t := by
  unfold St.requestReplication
  by_cases ht : s.tag = .loading
  · obtain ⟨h1, h2, h3⟩ := i.load ht
    rw [if_neg (by simp [ht]), if_neg (by simp [h3])]
    by_cases hq : q = true
    · subst hq
      rw [if_neg (by simp)]
      refine ⟨_, .refl _, ?_⟩
      have k := sent w { s with loading := { s.loading with started := true, id := s.lastCall + 1 } } s.loading.source
        (.replicate s.loading.tx)
      refine ⟨fun _ => ?_, fun e => ?_, fun c hc tx e => ?_, fun c hc e => ?_⟩
      · rw [k.loading]; exact ⟨h1, h2, h3⟩
      · rw [k.tag] at e
        rcases e with e | e <;> exact absurd (ht.symm.trans e) (fun h => by cases h)
      · rw [k.tag, k.loading]
        rcases k.calls with e1 | e1
        · rw [e1] at hc
          exact absurd ((i.repl c hc tx e).2.2) (by simp [h])
        · rw [e1, List.mem_append, List.mem_singleton] at hc
          rcases hc with hc | rfl
          · exact absurd ((i.repl c hc tx e).2.2) (by simp [h])
          · exact ⟨ht, .refl _, .refl _⟩
      · rw [k.tag]
        rcases k.calls with e1 | e1
        · rw [e1] at hc
          exact i.push c hc e
        · rw [e1, List.mem_append, List.mem_singleton] at hc
          rcases hc with hc | rfl
          · exact i.push c hc e
          · cases e
    · rw [if_pos (by simp [h, hq])]
      exact ⟨_, .refl _, i⟩
  · rw [if_pos ht]
    exact ⟨_, .refl _, i⟩

theorem inv_pushNext {s : St} (i : Inv s) (w : Sends) (p : Nat) (h : s.tag = .requesting ∨ s.tag = .part) :
    ∃ t, s.pushNext w p = .ok t ∧ Inv t ∧ t.tag = s.tag := by
  obtain ⟨o, ho, hi⟩ := i.held h
  unfold St.pushNext
  rw [if_neg (by simp [ho])]
  have k := sent w s p .push
  refine ⟨_, .refl _, ⟨fun e => ?_, fun _ => ?_, fun c hc tx e => ?_, fun c hc e => ?_⟩, k.tag⟩
  · rw [k.tag] at e
    rw [e] at h
    rcases h with h | h <;> cases h
  · exact ⟨o, k.loaded.trans ho, fun id e => k.ended ▸ hi id e⟩
  · rw [k.tag, k.loading]
    rcases k.calls with e1 | e1
    · exact i.repl c (e1 ▸ hc) tx e
    · rw [e1, List.mem_append, List.mem_singleton] at hc
      rcases hc with hc | rfl
      · exact i.repl c hc tx e
      · cases e
  · rw [k.tag]; exact h

theorem inv_pushes (w : Sends) (p : Nat) : ∀ (n : Nat) {s : St}, Inv s → s.tag = .requesting ∨ s.tag = .part →
    ∃ t, s.pushes w p n = .ok t ∧ Inv t
  | 0, s, i, _ => ⟨s, .refl _, i⟩
  | n + 1, s, i, h => by
    obtain ⟨t, e, it, ht⟩ := inv_pushNext i w p h
    obtain ⟨u, e2, iu⟩ := inv_pushes w p n it (ht ▸ h)
    exact ⟨u, by rw [St.pushes, e, Out.bind_ok, e2], iu⟩

theorem inv_write {s : St} (i : Inv s) (w : Sends) (v : View) (cb : LogCb) :
    ∃ r, s.write w v cb = .ok r ∧ Inv r.1 := by
  unfold St.write
  by_cases ht : s.tag = .part
  · obtain ⟨o, ho, hi⟩ := i.held (.inr ht)
    rw [if_neg (by simp [ht]), if_neg (by simp [ho])]
    split
    · split
      · exact ⟨_, .refl _, i⟩
      · split
        · exact ⟨_, .refl _, i⟩
        · exact ⟨_, .refl _, i.mono (.refl _) (.refl _) (.refl _) (fun _ x => x) fun c hc => .inl hc⟩
    · split
      · exact ⟨_, .refl _, i.send w _ (plain_write cb)⟩
      · exact ⟨_, .refl _, i⟩
  · rw [if_pos ht]
    exact ⟨_, .refl _, i⟩

theorem inv_orSay {r : St × Nat} (i : Inv r.1) (tx : Nat) : Inv (St.orSay tx r) := by
  unfold St.orSay
  split
  · exact i.same (same_say ..)
  · exact i

theorem inv_resetPeer {s : St} (i : Inv s) (p : Nat) : Inv (s.resetPeer p) := by
  unfold St.resetPeer
  refine (i.mono (t := { s with calls := s.calls.filter (·.peer ≠ p) }) (.refl _) (.refl _) (.refl _) (fun _ x => x) fun c hc =>
    .inl (List.mem_of_mem_filter hc)).same (same_failAll ..)

/-- No replication to or from this replica is under way. -/
def Calm (s : St) : Prop := ∀ c ∈ s.calls, Plain c.cb

theorem inv_join {s : St} (i : Inv s) (w : Sends) (tx : Nat) (p : Option Nat) (a b : Bool) (h : s.tag ≠ .part → p ≠ none → Calm s) :
    ∃ t, s.join w tx p a b = .ok t ∧ Inv t := by
  unfold St.join
  by_cases ht : s.tag = .part
  · rw [if_pos ht]
    exact ⟨_, .refl _, i.same (same_say ..)⟩
  · rw [if_neg ht]
    cases p with
    | none => exact ⟨_, .refl _, i.same (same_say ..)⟩
    | some p =>
      have hc := h ht (by simp)
      have j : Inv { s.clear with tag := .waiting, waitPeer := p, waitTx := tx } :=
        ⟨(fun h => by cases h), (fun h => by rcases h with h | h <;> cases h), fun c hm tx e => absurd e ((hc c hm).2 tx),
          fun c hm e => absurd e (hc c hm).1⟩
      simp only
      split
      · exact inv_joinFromFirst j w (.refl _)
      · split <;> exact ⟨_, .refl _, j⟩

theorem inv_createGroup {s : St} (i : Inv s) (tx r : Nat) : Inv (s.createGroup tx r) := by
  unfold St.createGroup
  split
  · exact i.same (same_say ..)
  · rename_i ht
    simp only [ne_eq, not_not] at ht
    split
    · exact i.same (same_say ..)
    · refine Inv.same ⟨(fun h => by cases h), fun _ => ⟨.created, .refl _, (fun id h => by cases h)⟩, fun c hc tx e => ?_, fun _ _ _ => .inr (.refl _)⟩
        (same_say ..)
      have := (i.repl c hc tx e).1
      exact absurd (ht.symm.trans this) (fun h => by cases h)

/-- What the partial theorem asks of a step: peers run this program, so they send memberships that parse and say that a replication is
complete only if it is; and the host does not tell a replica to join while a replication to or from it is under way. -/
def Allowed (s : St) : Ev → Prop
  | .push _ .badMembership => False
  | .respond _ id 0 _ => ∀ c ∈ s.calls, c.id = id → (∃ tx, c.cb = .replicate tx) → id ∈ s.ended
  | .host _ (.join (some _) _ _) => s.tag ≠ .part → Calm s
  | _ => True

theorem inv_host {s : St} (i : Inv s) (w : Sends) (tx : Nat) (r : Req) (h : Allowed s (.host tx r)) :
    ∃ t, s.host w tx r = .ok t ∧ Inv t := by
  have say : ∀ (x : Rep), Inv (s.say tx x) := fun x => i.same (same_say ..)
  have wr : ∀ (v : View) (cb : LogCb), ∃ t, (do let r ← s.write w v cb; pure (St.orSay tx r)) = Out.ok t ∧ Inv t := by
    intro v cb
    obtain ⟨r, e, ir⟩ := inv_write i w v cb
    exact ⟨_, by rw [e]; rfl, inv_orSay ir tx⟩
  unfold St.host
  split
  · exact ⟨_, .refl _, i⟩
  · have held : s.tag = .part → s.loaded ≠ none := fun ht => by
      obtain ⟨o, ho, _⟩ := i.held (.inr ht); rw [ho]; simp
    have held' : s.tag = .requesting → s.loaded ≠ none := fun ht => by
      obtain ⟨o, ho, _⟩ := i.held (.inl ht); rw [ho]; simp
    cases r with
    | newClient e => exact ⟨_, .refl _, say _⟩
    | existingClient way v =>
      cases way with
      | error e => exact ⟨_, .refl _, say _⟩
      | reply => exact ⟨_, .refl _, say _⟩
      | log => exact wr v _
    | closeClient => exact ⟨_, .refl _, say _⟩
    | createGroup e => exact ⟨_, .refl _, inv_createGroup i ..⟩
    | join p a b =>
      refine inv_join i w tx p a b fun ht hp => ?_
      cases p with
      | none => exact absurd (.refl _) hp
      | some p => exact h ht
    | ping p =>
      cases p with
      | none => exact ⟨_, .refl _, say _⟩
      | some p => exact ⟨_, .refl _, i.send w _ (plain_answer _)⟩
    | refresh e => exact ⟨_, .refl _, say _⟩
    | requestVoting v =>
      simp only [St.requestVoting]
      split
      · exact ⟨_, .refl _, say _⟩
      · rename_i ht
        rw [if_neg (held (by simpa using ht))]
        split
        · exact ⟨_, .refl _, say _⟩
        · split
          · exact ⟨_, .refl _, say _⟩
          · exact ⟨_, .refl _, i.send w _ (plain_answer _)⟩
    | status e =>
      simp only
      rw [if_neg (fun h => held h.1 h.2)]
      exact ⟨_, .refl _, say _⟩
    | metrics => exact ⟨_, .refl _, say _⟩
    | database e v =>
      simp only
      split
      · exact ⟨_, .refl _, say _⟩
      · exact wr v _
    | reconfigure e =>
      simp only
      rw [if_neg (fun h => h.2.1.elim (fun a => held a h.2.2) (fun a => held' a h.2.2))]
      exact ⟨_, .refl _, say _⟩
    | logLevel ok => exact ⟨_, .refl _, say _⟩
    | relinquish v =>
      simp only [St.relinquish]
      split
      · exact ⟨_, .refl _, say _⟩
      · rename_i ht
        rw [if_neg (held (by simpa using ht))]
        split
        · exact ⟨_, .refl _, say _⟩
        · exact ⟨_, .refl _, i.mono (.refl _) (.refl _) (.refl _) (fun _ x => x) fun c hc => .inl hc⟩
    | requestRemoval v =>
      simp only [St.hostRemoval]
      split
      · exact ⟨_, .refl _, say _⟩
      · rename_i ht
        rw [if_neg (held (by simpa using ht))]
        split
        · exact ⟨_, .refl _, say _⟩
        · split
          · exact ⟨_, .refl _, say _⟩
          · exact ⟨_, .refl _, i.send w _ (plain_answer _)⟩
    | hashes f =>
      simp only
      split
      · exact ⟨_, .refl _, say _⟩
      · rename_i ht
        have : s.loaded ≠ none := by
          by_cases a : s.tag = .part
          · exact held a
          · exact held' (by by_contra b; exact ht ⟨a, b⟩)
        rw [if_neg this]
        exact ⟨_, .refl _, say _⟩
    | resetPeer p e =>
      cases p with
      | none => exact ⟨_, .refl _, say _⟩
      | some p => exact ⟨_, .refl _, (inv_resetPeer i p).same (same_say ..)⟩
    | updateMinimums e v =>
      simp only
      split
      · exact ⟨_, .refl _, say _⟩
      · exact wr v _
    | connectPeer p e => cases p <;> exact ⟨_, .refl _, say _⟩
    | metadata e => exact ⟨_, .refl _, say _⟩
    | unknown => exact ⟨_, .refl _, i⟩

theorem inv_connected {s : St} (i : Inv s) (w : Sends) (p : Nat) (q : Bool) :
    ∃ t, s.connected w p q = .ok t ∧ Inv t := by
  have j := i.send w p plain_stamp
  unfold St.connected
  simp only
  cases ht : (s.send w p .stamp).tag with
  | loading =>
    simp only
    split
    · exact ⟨_, .refl _, j⟩
    · rename_i h
      exact inv_requestReplication j w q (by simpa using h)
  | waiting =>
    simp only
    split
    · exact inv_joinFromFirst j w ht
    · exact ⟨_, .refl _, j⟩
  | requesting =>
    obtain ⟨o, ho, _⟩ := j.held (.inl ht)
    simp only [ho]
    exact ⟨_, .refl _, j⟩
  | part =>
    obtain ⟨o, ho, _⟩ := j.held (.inr ht)
    simp only [ho]
    exact ⟨_, .refl _, j⟩
  | noState => exact ⟨_, .refl _, j⟩

/-- The transaction `id` is taken out. -/
theorem inv_taken {s : St} (i : Inv s) (id : Nat) : Inv { s with calls := s.calls.filter (·.id ≠ id) } :=
  i.mono (.refl _) (.refl _) (.refl _) (fun _ x => x) fun c hc => .inl (List.mem_of_mem_filter hc)

theorem inv_answered {s : St} (i : Inv s) (w : Sends) (c : Call) (hc : c ∈ s.calls) (a : Answer)
    (h : (∃ tx, c.cb = .replicate tx) → c.id ∈ s.ended) :
    ∃ t, { s with calls := s.calls.filter (·.id ≠ c.id) }.answered w c.peer c.cb a = .ok t ∧ Inv t := by
  have j := inv_taken i c.id
  cases e : c.cb with
  | answer tx => exact ⟨_, .refl _, j.same (same_say ..)⟩
  | join tx q =>
    simp only [St.answered]
    split
    · exact ⟨_, .refl _, j.same (same_say ..)⟩
    · rename_i ht
      simp only [ne_eq, not_not] at ht
      split
      · exact ⟨_, .refl _, j.same (same_say ..)⟩
      · refine inv_requestReplication ⟨fun _ => ⟨.refl _, .refl _, .refl _⟩, (fun h => by rcases h with h | h <;> cases h), fun c hc tx e => ?_, fun c hc e => ?_⟩
          w a.quorum (.refl _)
        · have := (j.repl c hc tx e).1
          exact absurd (ht.symm.trans this) (fun h => by cases h)
        · have := j.push c hc e
          simp only [ht] at this
          rcases this with h | h <;> cases h
  | replicate tx =>
    obtain ⟨h1, h2, h3⟩ := i.repl c hc tx e
    obtain ⟨k1, k2, k3⟩ := i.load h1
    simp only [St.answered, k2, k3, Bool.not_true, Bool.false_eq_true, if_false, and_false]
    split
    · exact ⟨_, .refl _, j.same (same_say ..)⟩
    · simp only [St.promote, k1, k3, Bool.not_true, Bool.or_self, Bool.false_eq_true, if_false]
      refine inv_requestMembership ⟨(fun h => by cases h), fun _ => ⟨_, .refl _, fun id e => ?_⟩, fun d hd tx' e' => ?_, fun _ _ _ => .inl (.refl _)⟩
        w _ _ (.refl _)
      · cases e
        rw [h2]
        exact h ⟨tx, ‹_›⟩
      · have hd : d ∈ s.calls.filter (·.id ≠ c.id) := hd
        rw [List.mem_filter] at hd
        have := (i.repl d hd.1 tx' e').2.1
        exact absurd (this.symm.trans h2) (by simpa using hd.2)
  | membership tx t =>
    exact ⟨_, .refl _, j.mono (.refl _) (.refl _) (.refl _) (fun _ x => x) fun c hc => .inl hc⟩
  | push =>
    simp only [St.answered]
    split
    · obtain ⟨t, e1, it, _⟩ := inv_pushNext j w c.peer (i.push c hc e)
      exact ⟨t, e1, it⟩
    · exact ⟨_, .refl _, j⟩
  | write cb =>
    simp only [St.answered]
    split
    · exact ⟨_, .refl _, j.same (same_logDone ..)⟩
    · exact ⟨_, .refl _, j.mono (.refl _) (.refl _) (.refl _) (fun _ x => x) fun c hc => .inl hc⟩
  | stamp => exact ⟨_, .refl _, j⟩

theorem inv_step {s : St} (i : Inv s) (w : Sends) (e : Ev) (h : Allowed s e) : ∃ t, step w s e = .ok t ∧ Inv t := by
  cases e with
  | host tx r => exact inv_host i w tx r h
  | connected p q => exact inv_connected i w p q
  | respond p id status a =>
    simp only [step]
    cases hf : s.calls.find? (·.id = id) with
    | none => exact ⟨_, .refl _, i⟩
    | some c =>
      have hid : c.id = id := by simpa using List.find?_some hf
      have hc := List.mem_of_find?_eq_some hf
      subst hid
      simp only
      split
      · exact ⟨_, .refl _, i⟩
      · rename_i hp
        simp only [ne_eq, not_not] at hp
        subst hp
        split
        · exact ⟨_, .refl _, (inv_taken i c.id).same (same_fail ..)⟩
        · rename_i hs
          simp only [ne_eq, not_not] at hs
          subst hs
          exact inv_answered i w c hc a (h c hc (.refl _))
  | expire id =>
    simp only [step]
    split
    · exact ⟨_, .refl _, i⟩
    · exact ⟨_, .refl _, (inv_taken i id).same (same_fail ..)⟩
  | reset p => exact ⟨_, .refl _, inv_resetPeer i p⟩
  | timer n peers =>
    simp only [step]
    split
    · exact ⟨_, .refl _, i⟩
    · rename_i x tx _
      have j : Inv { s with timers := s.timers.eraseIdx n } := i.mono (.refl _) (.refl _) (.refl _) (fun _ x => x) fun c hc => .inl hc
      split
      · rename_i ht
        exact inv_requestMembership j w _ _ ht
      · exact ⟨_, .refl _, j⟩
  | logDone n err out =>
    simp only [step]
    split
    · exact ⟨_, .refl _, i⟩
    · split
      · exact ⟨_, .refl _, i⟩
      · exact ⟨_, .refl _, (i.mono (t := { s with logs := s.logs.eraseIdx n }) (.refl _) (.refl _) (.refl _) (fun _ x => x)
          fun c hc => .inl hc).same (same_logDone ..)⟩
  | change me =>
    simp only [step]
    cases ht : s.tag with
    | part =>
      simp only
      split
      · exact ⟨_, .refl _, i⟩
      · refine ⟨_, .refl _, Inv.same (s := { s with tag := .requesting, logs := [] })
          ⟨(fun h => by cases h), fun _ => i.held (.inr ht), fun c hc tx e => ?_, fun _ _ _ => .inl (.refl _)⟩ (same_logAll ..)⟩
        have := (i.repl c hc tx e).1
        exact absurd (ht.symm.trans this) (fun h => by cases h)
    | requesting =>
      simp only
      refine ⟨_, .refl _, ?_⟩
      cases me
      · exact i
      · refine ⟨(fun h => by cases h), fun _ => i.held (.inl ht), fun c hc tx e => ?_, fun _ _ _ => .inr (.refl _)⟩
        have := (i.repl c hc tx e).1
        exact absurd (ht.symm.trans this) (fun h => by cases h)
    | loading => exact ⟨_, .refl _, i⟩
    | waiting => exact ⟨_, .refl _, i⟩
    | noState => exact ⟨_, .refl _, i⟩
  | push id way =>
    simp only [step]
    split
    · exact ⟨_, .refl _, i⟩
    · rename_i ht
      simp only [ne_eq, not_not] at ht
      obtain ⟨k1, k2, k3⟩ := i.load ht
      have j : Inv { s with loading := { s.loading with mem := true } } := by
        refine ⟨fun _ => ⟨k1, k2, .refl _⟩, i.held, i.repl, i.push⟩
      simp only [k1, k2, Bool.not_true, Bool.false_eq_true, if_false, if_true]
      simp only [k1, k2] at j
      split
      · exact ⟨_, .refl _, i⟩
      · cases way with
        | refused => exact ⟨_, .refl _, i⟩
        | badMembership => exact h.elim
        | failed =>
          exact ⟨_, .refl _, j⟩
        | accepted last =>
          refine ⟨_, .refl _, ?_⟩
          cases last
          · exact j
          · exact j.mono (.refl _) (.refl _) (.refl _) (fun _ x => List.mem_cons_of_mem _ x) fun c hc => .inl hc
  | ask p n =>
    simp only [step]
    split
    · exact ⟨_, .refl _, i⟩
    · rename_i ht
      exact inv_pushes w p n i (.inr (by simpa using ht))
  | removal log =>
    simp only [step]
    split
    · exact ⟨_, .refl _, i⟩
    · rename_i ht
      obtain ⟨o, ho, _⟩ := i.held (.inr (by simpa using ht))
      simp only [ho]
      refine ⟨_, .refl _, ?_⟩
      split
      · exact i
      · exact i.mono (.refl _) (.refl _) (.refl _) (fun _ x => x) fun c hc => .inl hc
  | other =>
    simp only [step]
    cases ht : s.tag with
    | loading =>
      simp only [(i.load ht).2.2, if_true]
      exact ⟨_, .refl _, i⟩
    | requesting =>
      obtain ⟨o, ho, _⟩ := i.held (.inl ht)
      simp only [ho]
      exact ⟨_, .refl _, i⟩
    | part =>
      obtain ⟨o, ho, _⟩ := i.held (.inr ht)
      simp only [ho]
      exact ⟨_, .refl _, i⟩
    | waiting => exact ⟨_, .refl _, i⟩
    | noState => exact ⟨_, .refl _, i⟩

/-- Each step of a run is `Allowed`. -/
def Fair (w : Sends) : St → List Ev → Prop
  | _, [] => True
  | s, e :: es => Allowed s e ∧ ∀ t, step w s e = .ok t → Fair w t es

theorem inv_run (w : Sends) : ∀ (es : List Ev) {s : St}, Inv s → Fair w s es → ∃ t, run w s es = .ok t ∧ Inv t
  | [], s, i, _ => ⟨s, .refl _, i⟩
  | e :: es, s, i, h => by
    obtain ⟨t, h1, it⟩ := inv_step i w e h.1
    obtain ⟨u, h2, iu⟩ := inv_run w es it (h.2 t h1)
    exact ⟨u, by rw [run, h1, Out.bind_ok, h2], iu⟩

end Svr.Core.Host
