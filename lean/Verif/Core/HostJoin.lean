import Verif.Core.HostReplies

/-! # A request to join that is not answered is not forgotten, until the replica is part of the group -/

namespace Svr.Core.Host

/-! ## Responses are not taken back -/

theorem said_say (s : St) (t : Nat) (r : Rep) (tx : Nat) : said s tx ≤ said (s.say t r) tx := by
  simp only [said, St.say, List.countP_append]
  omega

theorem said_sayit (s : St) (r : Rep) (tx : Nat) : 1 ≤ said (s.say tx r) tx := by
  simp [said, St.say, List.countP_append]

theorem said_logDone (s : St) (cb : LogCb) (e o tx : Nat) : said s tx ≤ said (s.logDone cb e o) tx := by
  cases cb with
  | removal => exact Nat.le_refl _
  | membership t i => exact said_say s t (.status e) tx
  | _ => exact said_say ..

theorem said_fail (s : St) (cb : Cb) (e tx : Nat) : said s tx ≤ said (s.fail cb e) tx := by
  cases cb with
  | write cb => exact said_logDone ..
  | membership _ _ => exact Nat.le_refl _
  | push => exact Nat.le_refl _
  | stamp => exact Nat.le_refl _
  | _ => exact said_say ..

theorem said_send (w : Sends) (s : St) (p : Nat) (cb : Cb) (tx : Nat) : said s tx ≤ said (s.send w p cb) tx := by
  unfold St.send
  simp only
  split
  · exact said_fail { s with lastCall := s.lastCall + 1 } cb _ tx
  · exact Nat.le_refl _

theorem said_sendAll (w : Sends) (cb : Cb) (tx : Nat) : ∀ (l : List Nat) (s : St), said s tx ≤ said (s.sendAll w cb l) tx
  | [], _ => Nat.le_refl _
  | p :: l, s => (said_send w s p cb tx).trans (said_sendAll w cb tx l _)

theorem said_failAll (e tx : Nat) : ∀ (l : List Call) (s : St), said s tx ≤ said (l.foldl (fun t c => t.fail c.cb e) s) tx
  | [], _ => Nat.le_refl _
  | c :: l, s => (said_fail s c.cb e tx).trans (said_failAll e tx l _)

theorem said_logAll (e tx : Nat) : ∀ (l : List LogCb) (s : St), said s tx ≤ said (l.foldl (fun t c => t.logDone c e 0) s) tx
  | [], _ => Nat.le_refl _
  | c :: l, s => (said_logDone s c e 0 tx).trans (said_logAll e tx l _)

theorem said_resetPeer (s : St) (p tx : Nat) : said s tx ≤ said (s.resetPeer p) tx :=
  said_failAll _ tx _ { s with calls := s.calls.filter (·.peer ≠ p) }

theorem said_requestMembership {w : Sends} {s t : St} {x : Nat} {l : List Nat} (tx : Nat) (e : s.requestMembership w x l = .ok t) :
    said s tx ≤ said t tx := by
  unfold St.requestMembership at e
  split at e
  · cases e
  · split at e
    · cases e
    · cases e
      exact said_sendAll w _ tx l { s with lastTimer := s.lastTimer + 1, timers := s.timers ++ [(s.lastTimer + 1, x)] }

theorem said_joinFromFirst {w : Sends} {s t : St} (tx : Nat) (e : s.joinFromFirst w = .ok t) : said s tx ≤ said t tx := by
  unfold St.joinFromFirst at e
  split at e
  · cases e
  · cases e; exact said_send ..

theorem said_requestReplication {w : Sends} {s t : St} {q : Bool} (tx : Nat) (e : s.requestReplication w q = .ok t) :
    said s tx ≤ said t tx := by
  unfold St.requestReplication at e
  split at e
  · cases e; exact Nat.le_refl _
  · split at e
    · cases e
    · split at e
      · cases e; exact Nat.le_refl _
      · cases e
        exact said_send w { s with loading := { s.loading with started := true, id := s.lastCall + 1 } } ..

theorem said_pushNext {w : Sends} {s t : St} {p : Nat} (tx : Nat) (e : s.pushNext w p = .ok t) : said s tx ≤ said t tx := by
  unfold St.pushNext at e
  split at e
  · cases e
  · cases e; exact said_send ..

theorem said_pushes {w : Sends} {p : Nat} (tx : Nat) : ∀ (n : Nat) {s t : St}, s.pushes w p n = .ok t → said s tx ≤ said t tx
  | 0, _, _, e => by cases e; exact Nat.le_refl _
  | n + 1, _, _, e => by
    rw [St.pushes] at e
    obtain ⟨u, e1, e2⟩ := Out.bind_eq_ok.mp e
    exact (said_pushNext tx e1).trans (said_pushes tx n e2)

theorem said_answered {w : Sends} {s t : St} {p : Nat} {cb : Cb} {a : Answer} (tx : Nat) (e : s.answered w p cb a = .ok t) :
    said s tx ≤ said t tx := by
  cases cb with
  | answer x => cases e; exact said_say ..
  | join x q =>
    simp only [St.answered] at e
    split at e
    · cases e; exact said_say ..
    · split at e
      · cases e; exact said_say ..
      · exact (said_requestReplication tx e : _)
  | replicate x =>
    simp only [St.answered] at e
    split at e
    · cases e
    · split at e
      · cases e
      · split at e
        · cases e; exact said_say ..
        · unfold St.promote at e
          simp only at e
          split at e
          · cases e
          · exact (said_requestMembership tx e : _)
  | membership x i => cases e; exact Nat.le_refl _
  | push =>
    simp only [St.answered] at e
    split at e
    · exact said_pushNext tx e
    · cases e; exact Nat.le_refl _
  | write cb =>
    simp only [St.answered] at e
    split at e
    · cases e; exact said_logDone ..
    · cases e; exact Nat.le_refl _
  | stamp => cases e; exact Nat.le_refl _

theorem said_written {w : Sends} {s t : St} {v : View} {cb : LogCb} {x : Nat} (tx : Nat)
    (e : (do let r ← s.write w v cb; pure (St.orSay x r)) = Out.ok t) : said s tx ≤ said t tx := by
  obtain ⟨r, e1, e2⟩ := Out.bind_eq_ok.mp e
  cases e2
  have h : said s tx ≤ said r.1 tx := by
    unfold St.write at e1
    split at e1
    · cases e1; exact Nat.le_refl _
    · split at e1
      · cases e1
      · split at e1
        · split at e1
          · cases e1; exact Nat.le_refl _
          · split at e1 <;> (cases e1; exact Nat.le_refl _)
        · split at e1
          · cases e1; exact said_send ..
          · cases e1; exact Nat.le_refl _
  unfold St.orSay
  split
  · exact h.trans (said_say ..)
  · exact h

theorem said_host {w : Sends} {s t : St} {x : Nat} {r : Req} (tx : Nat) (e : s.host w x r = .ok t) : said s tx ≤ said t tx := by
  unfold St.host at e
  split at e
  · cases e; exact Nat.le_refl _
  · cases r with
    | existingClient way v =>
      cases way with
      | error _ => cases e; exact said_say ..
      | reply => cases e; exact said_say ..
      | log => exact said_written tx e
    | createGroup r =>
      cases e
      simp only [St.createGroup]
      split
      · exact said_say ..
      · split
        · exact said_say ..
        · exact said_say { s with tag := .part, loaded := some .created } ..
    | join p a c =>
      simp only [St.join] at e
      split at e
      · cases e; exact said_say ..
      · split at e
        · cases e; exact said_say ..
        · split at e
          · exact (said_joinFromFirst tx e : _)
          · split at e <;> (cases e; exact Nat.le_refl _)
    | ping p =>
      cases p with
      | none => cases e; exact said_say ..
      | some p => cases e; exact said_send ..
    | requestVoting v =>
      simp only [St.requestVoting] at e
      split at e
      · cases e; exact said_say ..
      · split at e
        · cases e
        · split at e
          · cases e; exact said_say ..
          · split at e
            · cases e; exact said_say ..
            · cases e; exact said_send ..
    | status _ =>
      simp only at e
      split at e
      · cases e
      · cases e; exact said_say ..
    | database _ v =>
      simp only at e
      split at e
      · cases e; exact said_say ..
      · exact said_written tx e
    | reconfigure _ =>
      simp only at e
      split at e
      · cases e
      · cases e; exact said_say ..
    | relinquish v =>
      simp only [St.relinquish] at e
      split at e
      · cases e; exact said_say ..
      · split at e
        · cases e
        · split at e
          · cases e; exact said_say ..
          · cases e; exact Nat.le_refl _
    | requestRemoval v =>
      simp only [St.hostRemoval] at e
      split at e
      · cases e; exact said_say ..
      · split at e
        · cases e
        · split at e
          · cases e; exact said_say ..
          · split at e
            · cases e; exact said_say ..
            · cases e; exact said_send ..
    | hashes _ =>
      simp only at e
      split at e
      · cases e; exact said_say ..
      · split at e
        · cases e
        · cases e; exact said_say ..
    | resetPeer p _ =>
      cases p with
      | none => cases e; exact said_say ..
      | some p => cases e; exact (said_resetPeer s p tx).trans (said_say ..)
    | updateMinimums _ v =>
      simp only at e
      split at e
      · cases e; exact said_say ..
      · exact said_written tx e
    | connectPeer p _ => cases p <;> (cases e; exact said_say ..)
    | unknown => cases e; exact Nat.le_refl _
    | _ => cases e; exact said_say ..

theorem said_step {w : Sends} {s t : St} {e : Ev} (tx : Nat) (h : step w s e = .ok t) : said s tx ≤ said t tx := by
  cases e with
  | host x r => exact said_host tx h
  | connected p q =>
    have j := said_send w s p .stamp tx
    simp only [step, St.connected] at h
    split at h
    · split at h
      · cases h; exact j
      · exact j.trans (said_requestReplication tx h)
    · split at h
      · exact j.trans (said_joinFromFirst tx h)
      · cases h; exact j
    · split at h
      · cases h
      · cases h; exact j
    · split at h
      · cases h
      · cases h; exact j
    · cases h; exact j
  | respond p id status a =>
    simp only [step] at h
    split at h
    · cases h; exact Nat.le_refl _
    · split at h
      · cases h; exact Nat.le_refl _
      · split at h
        · cases h; exact said_fail { s with calls := s.calls.filter (·.id ≠ id) } ..
        · exact said_answered (s := { s with calls := s.calls.filter (·.id ≠ id) }) tx h
  | expire id =>
    simp only [step] at h
    split at h
    · cases h; exact Nat.le_refl _
    · cases h; exact said_fail { s with calls := s.calls.filter (·.id ≠ id) } ..
  | reset p => cases h; exact said_resetPeer ..
  | timer n peers =>
    simp only [step] at h
    split at h
    · cases h; exact Nat.le_refl _
    · split at h
      · exact said_requestMembership (s := { s with timers := s.timers.eraseIdx n }) tx h
      · cases h; exact Nat.le_refl _
  | logDone n err out =>
    simp only [step] at h
    split at h
    · cases h; exact Nat.le_refl _
    · split at h
      · cases h; exact Nat.le_refl _
      · cases h; exact said_logDone { s with logs := s.logs.eraseIdx n } ..
  | change me =>
    simp only [step] at h
    split at h
    · split at h
      · cases h; exact Nat.le_refl _
      · cases h; exact said_logAll _ tx _ { s with tag := .requesting, logs := [] }
    · cases h
      split <;> exact Nat.le_refl _
    · cases h; exact Nat.le_refl _
  | push id way =>
    simp only [step] at h
    split at h
    · cases h; exact Nat.le_refl _
    · split at h
      · cases h
      · split at h
        · cases h; exact Nat.le_refl _
        · split at h
          · cases h; exact Nat.le_refl _
          · cases h; exact Nat.le_refl _
          · split at h
            · cases h; exact Nat.le_refl _
            · cases h
          · split at h
            · cases h
              split <;> exact Nat.le_refl _
            · cases h
  | ask p n =>
    simp only [step] at h
    split at h
    · cases h; exact Nat.le_refl _
    · exact said_pushes tx n h
  | removal log =>
    simp only [step] at h
    split at h
    · cases h; exact Nat.le_refl _
    · split at h
      · cases h
      · cases h
        split <;> exact Nat.le_refl _
  | other =>
    simp only [step] at h
    split at h <;> first | (split at h <;> cases h <;> exact Nat.le_refl _) | (cases h; exact Nat.le_refl _)

/-! ## Who carries a request to join -/

/-- Where a request to join is kept: waiting for the peer to be connected or to say what the group is; loading, before the transaction
for replication is started or while it is outstanding; asking for membership, with a timer to ask again. -/
def Carried (tx : Nat) (s : St) : Prop :=
  match s.tag with
  | .waiting => s.waitTx = tx
  | .loading => s.loading.tx = tx ∧ (s.loading.started = false ∨ ∃ c ∈ s.calls, c.cb = .replicate tx)
  | .requesting => ∃ t ∈ s.timers, t.2 = tx
  | _ => False

/-- Nothing is done for another request to join. -/
structure Only (tx : Nat) (s : St) : Prop where
  wait : s.tag = .waiting → s.waitTx = tx
  load : s.tag = .loading → s.loading.tx = tx
  db : s.loading.db = true → s.tag = .loading
  calls : ∀ c ∈ s.calls, ∀ x, c.cb.joins = some x → x = tx
  logs : ∀ c ∈ s.logs, ∀ x, c.joins = some x → x = tx
  timers : ∀ t ∈ s.timers, t.2 = tx

/-- If `b`, the request is answered or carried. -/
def Track (tx : Nat) (b : Bool) (s : St) : Prop := Only tx s ∧ (b = true → 1 ≤ said s tx ∨ Carried tx s)

theorem Carried.mono {tx : Nat} {s t : St} (h : Carried tx s) (h1 : t.tag = s.tag) (h2 : t.waitTx = s.waitTx) (h3 : t.loading = s.loading)
    (h5 : ∀ c ∈ s.calls, c.cb = .replicate tx → c ∈ t.calls) (h8 : ∀ x ∈ s.timers, x ∈ t.timers) : Carried tx t := by
  unfold Carried at h ⊢
  rw [h1, h2, h3]
  cases ht : s.tag with
  | waiting => simp only [ht] at h ⊢; exact h
  | loading =>
    simp only [ht] at h ⊢
    refine ⟨h.1, h.2.imp_right ?_⟩
    rintro ⟨c, hc, hr⟩
    exact ⟨c, h5 c hc hr, hr⟩
  | requesting =>
    simp only [ht] at h ⊢
    obtain ⟨x, hx, e⟩ := h
    exact ⟨x, h8 x hx, e⟩
  | noState => simp only [ht] at h
  | part => simp only [ht] at h

theorem Only.mono {tx : Nat} {s t : St} (h : Only tx s) (h1 : t.tag = s.tag) (h2 : t.waitTx = s.waitTx) (h3 : t.loading = s.loading)
    (h4 : ∀ c ∈ t.calls, c ∈ s.calls ∨ ∀ x, c.cb.joins = some x → x = tx)
    (h6 : ∀ c ∈ t.logs, c ∈ s.logs ∨ ∀ x, c.joins = some x → x = tx)
    (h7 : ∀ x ∈ t.timers, x ∈ s.timers ∨ x.2 = tx) : Only tx t where
  wait e := h2.trans (h.wait (h1.symm.trans e))
  load e := by rw [h3]; exact h.load (h1.symm.trans e)
  db e := h1.trans (h.db (h3 ▸ e))
  calls c hc := (h4 c hc).elim (h.calls c) id
  logs c hc := (h6 c hc).elim (h.logs c) id
  timers x hx := (h7 x hx).elim (h.timers x) id

/-- Nothing of the request is touched. -/
theorem Track.mono {tx : Nat} {b : Bool} {s t : St} (h : Track tx b s) (h0 : said s tx ≤ said t tx) (h1 : t.tag = s.tag)
    (h2 : t.waitTx = s.waitTx) (h3 : t.loading = s.loading)
    (h4 : ∀ c ∈ t.calls, c ∈ s.calls ∨ ∀ x, c.cb.joins = some x → x = tx)
    (h5 : ∀ c ∈ s.calls, c.cb = .replicate tx → c ∈ t.calls)
    (h6 : ∀ c ∈ t.logs, c ∈ s.logs ∨ ∀ x, c.joins = some x → x = tx)
    (h7 : ∀ x ∈ t.timers, x ∈ s.timers ∨ x.2 = tx)
    (h8 : ∀ x ∈ s.timers, x ∈ t.timers) : Track tx b t :=
  ⟨h.1.mono h1 h2 h3 h4 h6 h7, fun e => (h.2 e).imp (fun k => k.trans h0) fun k => k.mono h1 h2 h3 h5 h8⟩

theorem track_say {tx : Nat} {b : Bool} {s : St} (h : Track tx b s) (x : Nat) (r : Rep) : Track tx b (s.say x r) :=
  h.mono (said_say ..) rfl rfl rfl (fun _ => Or.inl) (fun _ a _ => a) (fun _ => Or.inl) (fun _ => Or.inl) (fun _ a => a)

theorem only_say {tx : Nat} {s : St} (h : Only tx s) (x : Nat) (r : Rep) : Only tx (s.say x r) :=
  h.mono rfl rfl rfl (fun _ => Or.inl) (fun _ => Or.inl) (fun _ => Or.inl)

theorem track_sayit {tx : Nat} {s : St} (h : Only tx s) (r : Rep) (b : Bool) : Track tx b (s.say tx r) :=
  ⟨only_say h tx r, fun _ => Or.inl (said_sayit s r tx)⟩

theorem track_logDone {tx : Nat} {b : Bool} {s : St} (h : Track tx b s) (cb : LogCb) (e o : Nat) (hj : ∀ x, cb.joins = some x → x = tx) :
    Track tx b (s.logDone cb e o) := by
  cases cb with
  | removal => exact h
  | membership x i =>
    cases hj x rfl
    refine ⟨?_, fun _ => Or.inl (said_sayit s (.status e) tx)⟩
    refine h.1.mono rfl rfl rfl (fun _ => Or.inl) (fun _ => Or.inl) (fun y hy => Or.inl ?_)
    simp only [St.logDone] at hy
    split at hy
    · exact List.mem_of_mem_filter hy
    · exact hy
  | _ => exact track_say h ..

theorem track_fail {tx : Nat} {b : Bool} {s : St} (h : Track tx b s) (cb : Cb) (e : Nat) (hj : ∀ x, cb.joins = some x → x = tx) :
    Track tx b (s.fail cb e) := by
  cases cb with
  | write cb => exact track_logDone h cb e 0 hj
  | membership _ _ => exact h
  | push => exact h
  | stamp => exact h
  | _ => exact track_say h ..

/-- After an error the request for replication is answered. -/
theorem track_failed {tx : Nat} {s : St} (h : Only tx s) (e : Nat) (b : Bool) : Track tx b (s.fail (.replicate tx) e) :=
  track_sayit h _ b

theorem track_send {tx : Nat} {b : Bool} {s : St} (h : Track tx b s) (w : Sends) (p : Nat) (cb : Cb) (hj : ∀ x, cb.joins = some x → x = tx) :
    Track tx b (s.send w p cb) := by
  unfold St.send
  simp only
  have k : Track tx b { s with lastCall := s.lastCall + 1 } :=
    h.mono (Nat.le_refl _) rfl rfl rfl (fun _ => Or.inl) (fun _ a _ => a) (fun _ => Or.inl) (fun _ => Or.inl) (fun _ a => a)
  split
  · exact track_fail k cb _ hj
  · refine k.mono (Nat.le_refl _) rfl rfl rfl (fun c hc => ?_) (fun c a _ => List.mem_append_left _ a) (fun _ => Or.inl) (fun _ => Or.inl) (fun _ a => a)
    simp only [List.mem_append, List.mem_singleton] at hc
    rcases hc with hc | rfl
    · exact Or.inl hc
    · exact Or.inr hj

theorem track_sendAll {tx : Nat} {b : Bool} (w : Sends) (cb : Cb) (hj : ∀ x, cb.joins = some x → x = tx) : ∀ (l : List Nat) {s : St},
    Track tx b s → Track tx b (s.sendAll w cb l)
  | [], _, h => h
  | p :: l, _, h => track_sendAll w cb hj l (track_send h w p cb hj)

theorem track_addLog {tx : Nat} {b : Bool} {s : St} (h : Track tx b s) (cb : LogCb) (hj : ∀ x, cb.joins = some x → x = tx) :
    Track tx b (s.addLog cb) := by
  refine h.mono (Nat.le_refl _) rfl rfl rfl (fun _ => Or.inl) (fun _ a _ => a) (fun c hc => ?_) (fun _ => Or.inl) (fun _ a => a)
  simp only [St.addLog, List.mem_append, List.mem_singleton] at hc
  rcases hc with hc | rfl
  · exact Or.inl hc
  · exact Or.inr hj

/-- Asking for membership sets a timer to ask again. -/
theorem track_requestMembership {tx : Nat} {s t : St} (h : Only tx s) (w : Sends) {l : List Nat} (b : Bool)
    (e : s.requestMembership w tx l = .ok t) : Track tx b t := by
  unfold St.requestMembership at e
  split at e
  · cases e
  · rename_i ht
    split at e
    · cases e
    · cases e
      refine track_sendAll w _ (fun x hx => by cases hx; rfl) l ⟨h.mono rfl rfl rfl (fun _ => Or.inl) (fun _ => Or.inl) (fun y hy => ?_), fun _ => Or.inr ?_⟩
      · simp only [List.mem_append, List.mem_singleton] at hy
        rcases hy with hy | rfl
        · exact Or.inl hy
        · exact Or.inr rfl
      · have : s.tag = .requesting := by simpa using ht
        simp only [Carried, this]
        exact ⟨_, List.mem_append_right _ (List.mem_singleton.mpr rfl), rfl⟩

theorem track_joinFromFirst {tx : Nat} {b : Bool} {s t : St} (h : Track tx b s) (w : Sends) (e : s.joinFromFirst w = .ok t) : Track tx b t := by
  unfold St.joinFromFirst at e
  split at e
  · cases e
  · rename_i ht
    cases e
    refine track_send h w _ _ (fun x hx => ?_)
    cases hx
    exact h.1.wait (by simpa using ht)

/-- Whoever is loading asks for replication, or does it when enough voters are connected. -/
theorem track_requestReplication {tx : Nat} {b : Bool} {s t : St} (h : Track tx b s) (w : Sends) (q : Bool)
    (e : s.requestReplication w q = .ok t) : Track tx b t := by
  unfold St.requestReplication at e
  split at e
  · cases e; exact h
  · rename_i ht
    have ht : s.tag = .loading := by simpa using ht
    have hx := h.1.load ht
    split at e
    · cases e
    · split at e
      · cases e; exact h
      · cases e
        have k : Only tx { s with loading := { s.loading with started := true, id := s.lastCall + 1 } } :=
          ⟨h.1.wait, fun _ => hx, fun _ => ht, h.1.calls, h.1.logs, h.1.timers⟩
        rw [hx]
        unfold St.send
        simp only
        split
        · exact track_failed (s := { s with lastCall := s.lastCall + 1, loading := { s.loading with started := true, id := s.lastCall + 1 } })
            (k.mono rfl rfl rfl (fun _ => Or.inl) (fun _ => Or.inl) (fun _ => Or.inl)) _ b
        · refine ⟨⟨h.1.wait, fun _ => hx, fun _ => ht, fun c hc => ?_, h.1.logs, h.1.timers⟩, fun _ => Or.inr ?_⟩
          · simp only [List.mem_append, List.mem_singleton] at hc
            rcases hc with hc | rfl
            · exact h.1.calls c hc
            · intro x hx; cases hx; rfl
          · simp only [Carried, ht]
            exact ⟨hx, Or.inr ⟨_, List.mem_append_right _ (List.mem_singleton.mpr rfl), rfl⟩⟩

theorem track_pushNext {tx : Nat} {b : Bool} {s t : St} (h : Track tx b s) (w : Sends) {p : Nat} (e : s.pushNext w p = .ok t) : Track tx b t := by
  unfold St.pushNext at e
  split at e
  · cases e
  · cases e; exact track_send h w _ _ (fun x hx => by cases hx)

theorem track_pushes {tx : Nat} {b : Bool} (w : Sends) {p : Nat} : ∀ (n : Nat) {s t : St}, Track tx b s → s.pushes w p n = .ok t → Track tx b t
  | 0, _, _, h, e => by cases e; exact h
  | n + 1, _, _, h, e => by
    rw [St.pushes] at e
    obtain ⟨u, e1, e2⟩ := Out.bind_eq_ok.mp e
    exact track_pushes w n (track_pushNext h w e1) e2

/-- A response to the request for replication. -/
theorem track_replicated {tx : Nat} {s t : St} (h : Only tx s) (w : Sends) {p : Nat} {a : Answer} (b : Bool)
    (e : s.answered w p (.replicate tx) a = .ok t) : Track tx b t := by
  simp only [St.answered] at e
  split at e
  · cases e
  · rename_i hd
    have ht : s.tag = .loading := h.db (by simpa using hd)
    split at e
    · cases e
    · split at e
      · cases e; exact track_sayit h _ b
      · unfold St.promote at e
        simp only at e
        split at e
        · cases e
        · rw [h.load ht] at e
          exact track_requestMembership (s := { s.clear with tag := .requesting, loaded := some (.copy s.loading.id) })
            ⟨(fun x => by cases x), (fun x => by cases x), (fun x => by cases x), h.calls, h.logs, h.timers⟩ w b e

theorem track_answered {tx : Nat} {b : Bool} {s t : St} (h : Track tx b s) (w : Sends) {p : Nat} {cb : Cb} {a : Answer}
    (hj : ∀ x, cb.joins = some x → x = tx) (e : s.answered w p cb a = .ok t) : Track tx b t := by
  cases cb with
  | answer x => cases e; exact track_say h ..
  | join x q =>
    cases hj x rfl
    simp only [St.answered] at e
    split at e
    · cases e; exact track_say h ..
    · split at e
      · cases e; exact track_say h ..
      · exact track_requestReplication (s := { s.clear with tag := .loading, loading := ⟨true, true, true, q, tx, false, 0⟩ })
          ⟨⟨(fun x => by cases x), fun _ => rfl, fun _ => rfl, h.1.calls, h.1.logs, h.1.timers⟩, fun _ => Or.inr ⟨rfl, Or.inl rfl⟩⟩ w _ e
  | replicate x =>
    cases hj x rfl
    exact track_replicated h.1 w b e
  | membership x i => cases e; exact track_addLog h _ (fun y hy => by cases hy; exact hj x rfl)
  | push =>
    simp only [St.answered] at e
    split at e
    · exact track_pushNext h w e
    · cases e; exact h
  | write cb =>
    simp only [St.answered] at e
    split at e
    · cases e; exact track_logDone h _ _ _ hj
    · cases e; exact track_addLog h _ hj
  | stamp => cases e; exact h

theorem track_written {tx : Nat} {b : Bool} {s t : St} (h : Track tx b s) {w : Sends} {v : View} {cb : LogCb} {x : Nat} (hj : cb.joins = none)
    (e : (do let r ← s.write w v cb; pure (St.orSay x r)) = Out.ok t) : Track tx b t := by
  obtain ⟨r, e1, e2⟩ := Out.bind_eq_ok.mp e
  cases e2
  have k : Track tx b r.1 := by
    unfold St.write at e1
    split at e1
    · cases e1; exact h
    · split at e1
      · cases e1
      · split at e1
        · split at e1
          · cases e1; exact h
          · split at e1
            · cases e1; exact h
            · cases e1; exact track_addLog h _ (fun y hy => by rw [hj] at hy; cases hy)
        · split at e1
          · cases e1; exact track_send h _ _ _ (fun y hy => by rw [Cb.joins, hj] at hy; cases hy)
          · cases e1; exact h
  unfold St.orSay
  split
  · exact track_say k ..
  · exact k

theorem track_failAll {tx : Nat} {b : Bool} (e : Nat) : ∀ (l : List Call) {s : St}, (∀ c ∈ l, ∀ x, c.cb.joins = some x → x = tx) → Only tx s →
    (b = true → 1 ≤ said s tx ∨ Carried tx s ∨ ∃ c ∈ l, c.cb = .replicate tx) →
    Track tx b (l.foldl (fun t c => t.fail c.cb e) s)
  | [], _, _, ho, h => ⟨ho, fun x => (h x).imp_right fun k => k.elim id fun ⟨_, hc, _⟩ => by cases hc⟩
  | c :: l, s, hl, ho, h => by
    rw [List.foldl_cons]
    by_cases hc : c.cb = .replicate tx
    · have k := track_failed ho e true
      rw [hc]
      exact track_failAll e l (fun d hd => hl d (List.mem_cons_of_mem _ hd)) k.1 fun _ => (k.2 rfl).imp_right Or.inl
    · by_cases hr : ∃ d ∈ l, d.cb = .replicate tx
      · have k := track_fail (b := false) (s := s) ⟨ho, (fun x => by cases x)⟩ c.cb e (hl c List.mem_cons_self)
        exact track_failAll e l (fun d hd => hl d (List.mem_cons_of_mem _ hd)) k.1 fun _ => Or.inr (Or.inr hr)
      · have k : Track tx b (s.fail c.cb e) := by
          refine track_fail ⟨ho, fun x => (h x).imp_right fun k => k.elim id ?_⟩ c.cb e (hl c List.mem_cons_self)
          rintro ⟨d, hd, hx⟩
          rcases List.mem_cons.mp hd with rfl | hd
          · exact absurd hx hc
          · exact absurd ⟨d, hd, hx⟩ hr
        exact track_failAll e l (fun d hd => hl d (List.mem_cons_of_mem _ hd)) k.1 fun x => (k.2 x).imp_right Or.inl

theorem track_resetPeer {tx : Nat} {b : Bool} {s : St} (h : Track tx b s) (p : Nat) : Track tx b (s.resetPeer p) := by
  refine track_failAll _ _ (fun c hc => h.1.calls c (List.mem_of_mem_filter hc))
    (h.1.mono rfl rfl rfl (fun c hc => Or.inl (List.mem_of_mem_filter hc)) (fun _ => Or.inl) (fun _ => Or.inl)) fun x => ?_
  by_cases hr : ∃ c ∈ s.calls.filter (·.peer = p), c.cb = .replicate tx
  · exact Or.inr (Or.inr hr)
  · refine (h.2 x).imp_right fun k => Or.inl (k.mono rfl rfl rfl (fun c hc hx => List.mem_filter.mpr ⟨hc, ?_⟩) (fun _ a => a))
    have : c.peer ≠ p := fun a => hr ⟨c, List.mem_filter.mpr ⟨hc, by simpa using a⟩, hx⟩
    simpa using this

theorem track_join {tx : Nat} {s t : St} (h : Only tx s) (w : Sends) (p : Option Nat) (a c b : Bool) (e : s.join w tx p a c = .ok t) :
    Track tx b t := by
  simp only [St.join] at e
  split at e
  · cases e; exact track_sayit h _ b
  · split at e
    · cases e; exact track_sayit h _ b
    · rename_i p
      have k : Track tx b { s.clear with tag := .waiting, waitPeer := p, waitTx := tx } :=
        ⟨⟨fun _ => rfl, (fun x => by cases x), (fun x => by cases x), h.calls, h.logs, h.timers⟩, fun _ => Or.inr rfl⟩
      split at e
      · exact track_joinFromFirst k w e
      · split at e <;> (cases e; exact k)

theorem track_host {tx x : Nat} {b : Bool} {s t : St} (h : Track tx b s) (w : Sends) (r : Req) (hj : ∀ y, y ≠ tx → (Ev.host x r).asksJoin y = false)
    (e : s.host w x r = .ok t) : Track tx b t := by
  unfold St.host at e
  split at e
  · cases e; exact h
  · cases r with
    | existingClient way v =>
      cases way with
      | error _ => cases e; exact track_say h ..
      | reply => cases e; exact track_say h ..
      | log => exact track_written h rfl e
    | createGroup r =>
      cases e
      simp only [St.createGroup]
      split
      · exact track_say h ..
      · rename_i ht
        have ht : s.tag = .noState := by simpa using ht
        split
        · exact track_say h ..
        · refine track_say (s := { s with tag := .part, loaded := some .created }) ⟨⟨(fun x => by cases x), (fun x => by cases x), fun d => ?_, h.1.calls, h.1.logs, h.1.timers⟩, fun y => (h.2 y).imp_right fun k => ?_⟩ ..
          · have := h.1.db d
            rw [ht] at this
            cases this
          · simp only [Carried, ht] at k
    | join p a c =>
      have hx : x = tx := Decidable.byContradiction fun a => by simpa [Ev.asksJoin] using hj x a
      subst hx
      exact track_join h.1 w p a c b e
    | ping p =>
      cases p with
      | none => cases e; exact track_say h ..
      | some p => cases e; exact track_send h _ _ _ (fun y hy => by cases hy)
    | requestVoting v =>
      simp only [St.requestVoting] at e
      split at e
      · cases e; exact track_say h ..
      · split at e
        · cases e
        · split at e
          · cases e; exact track_say h ..
          · split at e
            · cases e; exact track_say h ..
            · cases e; exact track_send h _ _ _ (fun y hy => by cases hy)
    | status _ =>
      simp only at e
      split at e
      · cases e
      · cases e; exact track_say h ..
    | database _ v =>
      simp only at e
      split at e
      · cases e; exact track_say h ..
      · exact track_written h rfl e
    | reconfigure _ =>
      simp only at e
      split at e
      · cases e
      · cases e; exact track_say h ..
    | relinquish v =>
      simp only [St.relinquish] at e
      split at e
      · cases e; exact track_say h ..
      · split at e
        · cases e
        · split at e
          · cases e; exact track_say h ..
          · cases e; exact track_addLog h _ (fun y hy => by cases hy)
    | requestRemoval v =>
      simp only [St.hostRemoval] at e
      split at e
      · cases e; exact track_say h ..
      · split at e
        · cases e
        · split at e
          · cases e; exact track_say h ..
          · split at e
            · cases e; exact track_say h ..
            · cases e; exact track_send h _ _ _ (fun y hy => by cases hy)
    | hashes _ =>
      simp only at e
      split at e
      · cases e; exact track_say h ..
      · split at e
        · cases e
        · cases e; exact track_say h ..
    | resetPeer p _ =>
      cases p with
      | none => cases e; exact track_say h ..
      | some p => cases e; exact track_say (track_resetPeer h p) ..
    | updateMinimums _ v =>
      simp only at e
      split at e
      · cases e; exact track_say h ..
      · exact track_written h rfl e
    | connectPeer p _ => cases p <;> (cases e; exact track_say h ..)
    | unknown => cases e; exact h
    | _ => cases e; exact track_say h ..

theorem track_logAll {tx : Nat} {b : Bool} (e : Nat) : ∀ (l : List LogCb) {s : St}, (∀ c ∈ l, ∀ x, c.joins = some x → x = tx) → Track tx b s →
    Track tx b (l.foldl (fun t c => t.logDone c e 0) s)
  | [], _, _, h => h
  | c :: l, _, hl, h => track_logAll e l (fun d hd => hl d (List.mem_cons_of_mem _ hd)) (track_logDone h c e 0 (hl c List.mem_cons_self))

theorem ids_inj {s : St} (i : Ids s) {c d : Call} (hc : c ∈ s.calls) (hd : d ∈ s.calls) (e : c.id = d.id) : c = d := by
  have key : ∀ l : List Call, (l.map (·.id)).Nodup → c ∈ l → d ∈ l → c = d := by
    intro l
    induction l with
    | nil => intro _ h; cases h
    | cons x l ih =>
      intro n h1 h2
      rw [List.map_cons, List.nodup_cons] at n
      rcases List.mem_cons.mp h1 with h3 | h3 <;> rcases List.mem_cons.mp h2 with h4 | h4
      · exact h3.trans h4.symm
      · exact absurd (List.mem_map.mpr ⟨d, h4, by rw [← h3, e]⟩) n.1
      · exact absurd (List.mem_map.mpr ⟨c, h3, by rw [← h4, e]⟩) n.1
      · exact ih n.2 h3 h4
  exact key _ i.nodup hc hd

/-- A call is taken away that is not the one for replication. -/
theorem track_taken {tx : Nat} {b : Bool} {s : St} (h : Track tx b s) (i : Ids s) {c : Call} (hc : c ∈ s.calls) (hr : c.cb ≠ .replicate tx) :
    Track tx b { s with calls := s.calls.filter (·.id ≠ c.id) } := by
  refine h.mono (Nat.le_refl _) rfl rfl rfl (fun d hd => Or.inl (List.mem_of_mem_filter hd)) (fun d hd hx => List.mem_filter.mpr ⟨hd, ?_⟩)
    (fun _ => Or.inl) (fun _ => Or.inl) (fun _ a => a)
  have : d.id ≠ c.id := fun a => by
    have : d = c := ids_inj i hd hc a
    subst this
    exact hr hx
  simpa using this

theorem only_taken {tx : Nat} {s : St} (h : Only tx s) (id : Nat) : Only tx { s with calls := s.calls.filter (·.id ≠ id) } :=
  h.mono rfl rfl rfl (fun d hd => Or.inl (List.mem_of_mem_filter hd)) (fun _ => Or.inl) (fun _ => Or.inl)

theorem track_step {tx : Nat} {b : Bool} {s t : St} (h : Track tx b s) (i : Ids s) (w : Sends) (e : Ev) (hj : ∀ y, y ≠ tx → e.asksJoin y = false)
    (hc : b = true → e ≠ .change true) (hs : step w s e = .ok t) : Track tx b t := by
  cases e with
  | host x r => exact track_host h w r hj hs
  | connected p q =>
    have j := track_send h w p .stamp (fun y hy => by cases hy)
    simp only [step, St.connected] at hs
    split at hs
    · split at hs
      · cases hs; exact j
      · exact track_requestReplication j w _ hs
    · split at hs
      · exact track_joinFromFirst j w hs
      · cases hs; exact j
    · split at hs
      · cases hs
      · cases hs; exact j
    · split at hs
      · cases hs
      · cases hs; exact j
    · cases hs; exact j
  | respond p id status a =>
    simp only [step] at hs
    split at hs
    · cases hs; exact h
    · rename_i c hf
      have hid : c.id = id := by simpa using List.find?_some hf
      have hm := List.mem_of_find?_eq_some hf
      subst hid
      split at hs
      · cases hs; exact h
      · by_cases hr : c.cb = .replicate tx
        · rw [hr] at hs
          split at hs
          · cases hs; exact track_failed (only_taken h.1 _) _ b
          · exact track_replicated (only_taken h.1 _) w b hs
        · split at hs
          · cases hs; exact track_fail (track_taken h i hm hr) _ _ (h.1.calls c hm)
          · exact track_answered (track_taken h i hm hr) w (h.1.calls c hm) hs
  | expire id =>
    simp only [step] at hs
    split at hs
    · cases hs; exact h
    · rename_i c hf
      have hid : c.id = id := by simpa using List.find?_some hf
      have hm := List.mem_of_find?_eq_some hf
      subst hid
      cases hs
      by_cases hr : c.cb = .replicate tx
      · rw [hr]; exact track_failed (only_taken h.1 _) _ b
      · exact track_fail (track_taken h i hm hr) _ _ (h.1.calls c hm)
  | reset p => cases hs; exact track_resetPeer h p
  | timer n peers =>
    simp only [step] at hs
    split at hs
    · cases hs; exact h
    · rename_i k x hx
      cases h.1.timers _ (List.mem_of_getElem? hx)
      have o : Only x { s with timers := s.timers.eraseIdx n } :=
        h.1.mono rfl rfl rfl (fun _ => Or.inl) (fun _ => Or.inl) (fun _ a => Or.inl (List.mem_of_mem_eraseIdx a))
      split at hs
      · exact track_requestMembership o w b hs
      · rename_i ht
        cases hs
        refine ⟨o, fun y => (h.2 y).imp_right fun c => ?_⟩
        unfold Carried at c ⊢
        cases hg : s.tag with
        | requesting => exact absurd hg ht
        | _ => simp only [hg] at c ⊢; try exact c
  | logDone n err out =>
    simp only [step] at hs
    split at hs
    · cases hs; exact h
    · split at hs
      · cases hs; exact h
      · rename_i cb hn
        cases hs
        exact track_logDone (s := { s with logs := s.logs.eraseIdx n })
          (h.mono (Nat.le_refl _) rfl rfl rfl (fun _ => Or.inl) (fun _ a _ => a) (fun _ a => Or.inl (List.mem_of_mem_eraseIdx a)) (fun _ => Or.inl) (fun _ a => a))
          cb err out (h.1.logs cb (List.mem_of_getElem? hn))
  | change me =>
    simp only [step] at hs
    split at hs
    · rename_i ht
      split at hs
      · cases hs; exact h
      · cases hs
        refine track_logAll _ _ h.1.logs (s := { s with tag := .requesting, logs := [] })
          ⟨⟨(fun x => by cases x), (fun x => by cases x), fun d => ?_, h.1.calls, (fun x hx => by cases hx), h.1.timers⟩, fun y => (h.2 y).imp_right fun k => ?_⟩
        · have := h.1.db d
          rw [ht] at this
          cases this
        · simp only [Carried, ht] at k
    · rename_i ht
      cases hs
      split
      · rename_i hme
        subst hme
        refine ⟨⟨(fun x => by cases x), (fun x => by cases x), fun d => ?_, h.1.calls, h.1.logs, h.1.timers⟩, fun y => absurd rfl (hc y)⟩
        have := h.1.db d
        rw [ht] at this
        cases this
      · exact h
    · cases hs; exact h
  | push id way =>
    simp only [step] at hs
    split at hs
    · cases hs; exact h
    · rename_i ht
      have ht : s.tag = .loading := by simpa using ht
      have k : ∀ (m : Bool) (en : List Nat), Track tx b { s with loading := { s.loading with mem := m }, ended := en } := fun m en => by
        refine ⟨⟨h.1.wait, h.1.load, h.1.db, h.1.calls, h.1.logs, h.1.timers⟩, fun y => (h.2 y).imp_right fun c => ?_⟩
        simp only [Carried, ht] at c ⊢
        exact c
      split at hs
      · cases hs
      · split at hs
        · cases hs; exact h
        · split at hs
          · cases hs; exact h
          · cases hs; exact k false s.ended
          · split at hs
            · cases hs; exact k true s.ended
            · cases hs
          · split at hs
            · cases hs
              split
              · exact k true _
              · exact k true s.ended
            · cases hs
  | ask p n =>
    simp only [step] at hs
    split at hs
    · cases hs; exact h
    · exact track_pushes w n h hs
  | removal log =>
    simp only [step] at hs
    split at hs
    · cases hs; exact h
    · split at hs
      · cases hs
      · cases hs
        split
        · exact h
        · exact track_addLog h _ (fun y hy => by cases hy)
  | other =>
    simp only [step] at hs
    split at hs <;> first | (split at hs <;> cases hs <;> exact h) | (cases hs; exact h)

theorem track_run {tx : Nat} {b : Bool} (w : Sends) : ∀ (es : List Ev) {s t : St} {n : Nat}, Track tx b s → Books (tx + 1) s n →
    (∀ e ∈ es, ∀ y, y ≠ tx → e.asksJoin y = false) → (b = true → Ev.change true ∉ es) → run w s es = .ok t →
    Track tx b t ∧ ∃ m, Books (tx + 1) t m
  | [], _, _, n, h, k, _, _, hr => by cases hr; exact ⟨h, n, k⟩
  | e :: es, _, _, _, h, k, hj, hc, hr => by
    rw [run] at hr
    obtain ⟨u, e1, e2⟩ := Out.bind_eq_ok.mp hr
    have j := hj e List.mem_cons_self
    exact track_run w es (track_step h k.ids w e j (fun y a => hc y (a ▸ List.mem_cons_self)) e1)
      (books_step k w e (j _ (by omega)) e1) (fun d hd => hj d (List.mem_cons_of_mem _ hd)) (fun y a => hc y (List.mem_cons_of_mem _ a)) e2

theorem run_append (w : Sends) : ∀ (xs ys : List Ev) (s : St), run w s (xs ++ ys) = (do let t ← run w s xs; run w t ys)
  | [], ys, s => by simp [run]
  | x :: xs, ys, s => by
    rw [List.cons_append, run, run]
    cases h : step w s x with
    | ok t => simp only [Out.bind_ok]; exact run_append w xs ys t
    | abort => rfl
    | ub => rfl

/-- A request to join is answered or carried, until the replica is a member. -/
theorem join_kept {tx : Nat} (w : Sends) {pre post : List Ev} {p : Option Nat} {a c : Bool} {t : St} (h0 : tx ≠ 0)
    (hj : ∀ e ∈ pre ++ .host tx (.join p a c) :: post, ∀ y, y ≠ tx → e.asksJoin y = false) (hc : Ev.change true ∉ post)
    (hr : run w init (pre ++ .host tx (.join p a c) :: post) = .ok t) : 1 ≤ said t tx ∨ Carried tx t := by
  rw [run_append] at hr
  obtain ⟨u, e1, e2⟩ := Out.bind_eq_ok.mp hr
  have i : Track tx false init :=
    ⟨⟨(fun x => by cases x), (fun x => by cases x), (fun x => by cases x), (fun x hx => by cases hx), (fun x hx => by cases hx), (fun x hx => by cases hx)⟩,
      (fun x => by cases x)⟩
  obtain ⟨k, m, bk⟩ := track_run w pre i (books_init (Nat.succ_ne_zero tx)) (fun e he => hj e (List.mem_append_left _ he)) (fun x => by cases x) e1
  rw [run] at e2
  obtain ⟨v, e3, e4⟩ := Out.bind_eq_ok.mp e2
  have hh : ∀ y, y ≠ tx → (Ev.host tx (.join p a c)).asksJoin y = false := hj _ (List.mem_append_right _ List.mem_cons_self)
  have bv := books_step bk w _ (hh (tx + 1) (by omega)) e3
  have kv : Track tx true v := by
    simp only [step, St.host, if_neg h0] at e3
    exact track_join k.1 w p a c true e3
  exact (track_run w post kv bv (fun e he => hj e (List.mem_append_right _ (List.mem_cons_of_mem _ he))) (fun _ => hc) e4).1.2 rfl

end Svr.Core.Host
