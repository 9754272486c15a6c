import Verif.Core.HostFacts

/-! # Responses to the host: every request is answered or on the books -/

namespace Svr.Core.Host

/-- The request that a callback of a log transaction will answer, but for joining. -/
def LogCb.owner : LogCb → Option Nat
  | .client tx | .database tx | .minimums tx | .relinquish tx => some tx
  | .membership _ _ | .removal => none

/-- The request to join that a callback of a log transaction will answer. -/
def LogCb.joins : LogCb → Option Nat
  | .membership tx _ => some tx
  | _ => none

/-- The request that a callback of a transaction with a peer will answer, but for joining. -/
def Cb.owner : Cb → Option Nat
  | .answer tx => some tx
  | .write cb => cb.owner
  | _ => none

/-- The request to join on behalf of which a transaction with a peer is made. -/
def Cb.joins : Cb → Option Nat
  | .join tx _ | .replicate tx | .membership tx _ => some tx
  | .write cb => cb.joins
  | _ => none

/-- How many responses to `tx` were sent. -/
def said (s : St) (tx : Nat) : Nat := s.replies.countP fun r => r.1 = tx

/-- How many stored callbacks will answer `tx`. -/
def owed (s : St) (tx : Nat) : Nat :=
  s.calls.countP (fun c => c.cb.owner = some tx) + s.logs.countP (fun c => c.owner = some tx)

/-- 1 if it is `tx`. -/
def one (o : Option Nat) (tx : Nat) : Nat := if o = some tx then 1 else 0

/-- `tx` is not the number of a request to join. -/
structure Free (tx : Nat) (s : St) : Prop where
  zero : tx ≠ 0
  wait : s.waitTx ≠ tx
  load : s.loading.tx ≠ tx
  calls : ∀ c ∈ s.calls, c.cb.joins ≠ some tx
  logs : ∀ c ∈ s.logs, c.joins ≠ some tx
  timers : ∀ t ∈ s.timers, t.2 ≠ tx

/-- The numbers of the outstanding transactions. -/
structure Ids (s : St) : Prop where
  nodup : (s.calls.map (·.id)).Nodup
  le : ∀ c ∈ s.calls, c.id ≤ s.lastCall

/-- `b` responses to `tx` were sent or will be. -/
structure Books (tx : Nat) (s : St) (b : Nat) : Prop where
  sum : said s tx + owed s tx = b
  free : Free tx s
  ids : Ids s

theorem Books.cast {tx : Nat} {s : St} {b b' : Nat} (h : Books tx s b) (e : b = b') : Books tx s b' := e ▸ h

theorem books_say {tx : Nat} {s : St} {b : Nat} (h : Books tx s b) (t : Nat) (r : Rep) :
    Books tx (s.say t r) (b + one (some t) tx) := by
  refine ⟨?_, ⟨h.free.zero, h.free.wait, h.free.load, h.free.calls, h.free.logs, h.free.timers⟩, ⟨h.ids.nodup, h.ids.le⟩⟩
  have : said (s.say t r) tx = said s tx + one (some t) tx := by
    simp only [said, St.say, List.countP_append, List.countP_singleton, one, Option.some.injEq, decide_eq_true_eq]
  have ho : owed (s.say t r) tx = owed s tx := rfl
  have := h.sum
  omega

theorem books_sayOther {tx : Nat} {s : St} {b : Nat} (h : Books tx s b) {t : Nat} (ht : t ≠ tx) (r : Rep) : Books tx (s.say t r) b :=
  (books_say h t r).cast (by simp [one, ht])

theorem books_logDone {tx : Nat} {s : St} {b : Nat} (h : Books tx s b) (cb : LogCb) (e o : Nat) (hf : cb.joins ≠ some tx) :
    Books tx (s.logDone cb e o) (b + one cb.owner tx) := by
  cases cb with
  | membership t i =>
    have ht : t ≠ tx := fun x => hf (by simp [LogCb.joins, x])
    have k := books_sayOther h ht (.status e)
    refine Books.cast ⟨k.sum, ⟨k.free.zero, k.free.wait, k.free.load, k.free.calls, k.free.logs, fun x hx => ?_⟩, ⟨k.ids.nodup, k.ids.le⟩⟩ rfl
    simp only [St.logDone] at hx
    split at hx
    · exact h.free.timers x (List.mem_of_mem_filter hx)
    · exact h.free.timers x hx
  | removal => exact h
  | _ => exact books_say h _ _

theorem books_fail {tx : Nat} {s : St} {b : Nat} (h : Books tx s b) (cb : Cb) (e : Nat) (hf : cb.joins ≠ some tx) :
    Books tx (s.fail cb e) (b + one cb.owner tx) := by
  cases cb with
  | answer t => exact books_say h _ _
  | join t p => exact books_sayOther h (fun x => hf (by simp [Cb.joins, x])) _
  | replicate t => exact books_sayOther h (fun x => hf (by simp [Cb.joins, x])) _
  | membership _ _ => exact h
  | push => exact h
  | write cb => exact books_logDone h cb e 0 hf
  | stamp => exact h

theorem books_store {tx : Nat} {s : St} {b : Nat} (h : Books tx s b) (p : Nat) (cb : Cb) (hf : cb.joins ≠ some tx) :
    Books tx { s with lastCall := s.lastCall + 1, calls := s.calls ++ [⟨s.lastCall + 1, p, cb⟩] } (b + one cb.owner tx) := by
  refine ⟨?_, ⟨h.free.zero, h.free.wait, h.free.load, fun c hc => ?_, h.free.logs, h.free.timers⟩, ⟨?_, fun c hc => ?_⟩⟩
  · have := h.sum
    simp only [said, owed, List.countP_append, List.countP_singleton, decide_eq_true_eq, one] at this ⊢
    omega
  · simp only [List.mem_append, List.mem_singleton] at hc
    rcases hc with hc | rfl
    · exact h.free.calls c hc
    · exact hf
  · simp only [List.map_append, List.map_cons, List.map_nil]
    refine List.nodup_append.mpr ⟨h.ids.nodup, by simp, fun x hx y hy => ?_⟩
    obtain ⟨c, hc, rfl⟩ := List.mem_map.mp hx
    have := h.ids.le c hc
    simp only [List.mem_singleton] at hy
    omega
  · simp only [List.mem_append, List.mem_singleton] at hc
    rcases hc with hc | rfl
    · exact Nat.le_succ_of_le (h.ids.le c hc)
    · exact Nat.le_refl _

theorem books_count {tx : Nat} {s : St} {b : Nat} (h : Books tx s b) : Books tx { s with lastCall := s.lastCall + 1 } b :=
  ⟨h.sum, ⟨h.free.zero, h.free.wait, h.free.load, h.free.calls, h.free.logs, h.free.timers⟩,
    ⟨h.ids.nodup, fun c hc => Nat.le_succ_of_le (h.ids.le c hc)⟩⟩

theorem books_send {tx : Nat} {s : St} {b : Nat} (h : Books tx s b) (w : Sends) (p : Nat) (cb : Cb) (hf : cb.joins ≠ some tx) :
    Books tx (s.send w p cb) (b + one cb.owner tx) := by
  unfold St.send
  simp only
  split
  · exact books_fail (books_count h) cb _ hf
  · exact books_store h p cb hf

theorem books_addLog {tx : Nat} {s : St} {b : Nat} (h : Books tx s b) (cb : LogCb) (hf : cb.joins ≠ some tx) :
    Books tx (s.addLog cb) (b + one cb.owner tx) := by
  refine ⟨?_, ⟨h.free.zero, h.free.wait, h.free.load, h.free.calls, fun c hc => ?_, h.free.timers⟩, ⟨h.ids.nodup, h.ids.le⟩⟩
  · have := h.sum
    simp only [said, owed, St.addLog, List.countP_append, List.countP_singleton, decide_eq_true_eq, one] at this ⊢
    omega
  · simp only [St.addLog, List.mem_append, List.mem_singleton] at hc
    rcases hc with hc | rfl
    · exact h.free.logs c hc
    · exact hf

theorem books_sendAll {tx : Nat} (w : Sends) (cb : Cb) (hf : cb.joins ≠ some tx) (ho : cb.owner = none) : ∀ (l : List Nat) {s : St} {b : Nat},
    Books tx s b → Books tx (s.sendAll w cb l) b
  | [], _, _, h => h
  | p :: l, _, _, h => books_sendAll w cb hf ho l ((books_send h w p cb hf).cast (by simp [one, ho]))

theorem books_requestMembership {tx : Nat} {s t : St} {b : Nat} (h : Books tx s b) (w : Sends) {x : Nat} (hx : x ≠ tx) {peers : List Nat}
    (e : s.requestMembership w x peers = .ok t) : Books tx t b := by
  unfold St.requestMembership at e
  split at e
  · cases e
  · split at e
    · cases e
    · cases e
      refine books_sendAll w _ (by simp [Cb.joins, hx]) rfl peers
        ⟨h.sum, ⟨h.free.zero, h.free.wait, h.free.load, h.free.calls, h.free.logs, fun y hy => ?_⟩, ⟨h.ids.nodup, h.ids.le⟩⟩
      simp only [List.mem_append, List.mem_singleton] at hy
      rcases hy with hy | rfl
      · exact h.free.timers y hy
      · exact hx

theorem books_joinFromFirst {tx : Nat} {s t : St} {b : Nat} (h : Books tx s b) (w : Sends)
    (e : s.joinFromFirst w = .ok t) : Books tx t b := by
  unfold St.joinFromFirst at e
  split at e
  · cases e
  · cases e
    exact (books_send h w _ _ (by simpa [Cb.joins] using h.free.wait)).cast (by simp [one, Cb.owner])

theorem books_requestReplication {tx : Nat} {s t : St} {b : Nat} (h : Books tx s b) (w : Sends) {q : Bool}
    (e : s.requestReplication w q = .ok t) : Books tx t b := by
  unfold St.requestReplication at e
  split at e
  · cases e; exact h
  · split at e
    · cases e
    · split at e
      · cases e; exact h
      · cases e
        have k : Books tx { s with loading := { s.loading with started := true, id := s.lastCall + 1 } } b :=
          ⟨h.sum, ⟨h.free.zero, h.free.wait, h.free.load, h.free.calls, h.free.logs, h.free.timers⟩, ⟨h.ids.nodup, h.ids.le⟩⟩
        exact (books_send k w s.loading.source (.replicate s.loading.tx) (by simpa [Cb.joins] using h.free.load)).cast
          (by simp [one, Cb.owner])

theorem books_pushNext {tx : Nat} {s t : St} {b : Nat} (h : Books tx s b) (w : Sends) {p : Nat}
    (e : s.pushNext w p = .ok t) : Books tx t b := by
  unfold St.pushNext at e
  split at e
  · cases e
  · cases e
    exact (books_send h w p .push (by simp [Cb.joins])).cast (by simp [one, Cb.owner])

theorem books_pushes {tx : Nat} (w : Sends) (p : Nat) : ∀ (n : Nat) {s t : St} {b : Nat}, Books tx s b → s.pushes w p n = .ok t → Books tx t b
  | 0, _, _, _, h, e => by cases e; exact h
  | n + 1, _, _, _, h, e => by
    rw [St.pushes] at e
    obtain ⟨u, e1, e2⟩ := Out.bind_eq_ok.mp e
    exact books_pushes w p n (books_pushNext h w e1) e2

/-- A state that differs only in what `Books` does not look at. -/
theorem books_of {tx : Nat} {s t : St} {b : Nat} (h : Books tx s b) (h1 : t.replies = s.replies) (h2 : t.calls = s.calls)
    (h3 : t.logs = s.logs) (h4 : t.lastCall = s.lastCall) (h5 : t.timers = s.timers) (h6 : t.waitTx ≠ tx) (h7 : t.loading.tx ≠ tx) :
    Books tx t b :=
  ⟨by rw [← h.sum, said, said, owed, owed, h1, h2, h3],
    ⟨h.free.zero, h6, h7, h2 ▸ h.free.calls, h3 ▸ h.free.logs, h5 ▸ h.free.timers⟩, ⟨h2 ▸ h.ids.nodup, h2 ▸ h4 ▸ h.ids.le⟩⟩

theorem books_promote {tx : Nat} {s t : St} {b : Nat} (h : Books tx s b) (w : Sends) {peers : List Nat}
    (e : s.promote w peers = .ok t) : Books tx t b := by
  unfold St.promote at e
  simp only at e
  split at e
  · cases e
  · have k : Books tx { s.clear with tag := .requesting, loaded := some (.copy s.loading.id) } b :=
      books_of h rfl rfl rfl rfl rfl h.free.zero.symm h.free.zero.symm
    exact books_requestMembership k w h.free.load e

theorem books_answered {tx : Nat} {s t : St} {b : Nat} (h : Books tx s b) (w : Sends) {p : Nat} {cb : Cb} {a : Answer}
    (hf : cb.joins ≠ some tx) (e : s.answered w p cb a = .ok t) : Books tx t (b + one cb.owner tx) := by
  cases cb with
  | answer x => cases e; exact books_say h _ _
  | join x q =>
    have hx : x ≠ tx := fun y => hf (by simp [Cb.joins, y])
    simp only [St.answered] at e
    split at e
    · cases e; exact books_sayOther h hx _
    · split at e
      · cases e; exact books_sayOther h hx _
      · have k : Books tx { s.clear with tag := .loading, loading := ⟨true, true, true, q, x, false, 0⟩ } b :=
          books_of h rfl rfl rfl rfl rfl h.free.zero.symm hx
        exact books_requestReplication k w e
  | replicate x =>
    have hx : x ≠ tx := fun y => hf (by simp [Cb.joins, y])
    simp only [St.answered] at e
    split at e
    · cases e
    · split at e
      · cases e
      · split at e
        · cases e; exact books_sayOther h hx _
        · exact books_promote h w e
  | membership x i =>
    cases e
    exact (books_addLog h _ (by simpa [Cb.joins, LogCb.joins] using hf)).cast (by simp [one, LogCb.owner, Cb.owner])
  | push =>
    simp only [St.answered] at e
    split at e
    · exact books_pushNext h w e
    · cases e; exact h
  | write cb =>
    simp only [St.answered] at e
    split at e
    · cases e; exact books_logDone h cb _ _ hf
    · cases e; exact books_addLog h cb hf
  | stamp => cases e; exact h

theorem books_write {tx : Nat} {s : St} {b : Nat} (h : Books tx s b) (w : Sends) {v : View} {cb : LogCb} {r : St × Nat}
    (hf : cb.joins ≠ some tx) (e : s.write w v cb = .ok r) :
    (r.2 = 0 ∧ Books tx r.1 (b + one cb.owner tx)) ∨ (r.2 ≠ 0 ∧ Books tx r.1 b) := by
  unfold St.write at e
  split at e
  · cases e; exact .inr ⟨by simp [raftState], h⟩
  · split at e
    · cases e
    · split at e
      · split at e
        · cases e; exact .inr ⟨by simp [someError], h⟩
        · split at e
          · rename_i hl
            cases e; exact .inr ⟨hl, h⟩
          · cases e; exact .inl ⟨rfl, books_addLog h cb hf⟩
      · split at e
        · cases e; exact .inl ⟨rfl, books_send h w _ (.write cb) hf⟩
        · cases e; exact .inr ⟨by simp [leaderUnknown], h⟩

/-- A client's request and the like: stored, or the host is told. -/
theorem books_written {tx x : Nat} {s t : St} {b : Nat} (h : Books tx s b) (w : Sends) {v : View} {cb : LogCb}
    (hf : cb.joins = none) (ho : cb.owner = some x) (e : (do let r ← s.write w v cb; pure (St.orSay x r)) = Out.ok t) :
    Books tx t (b + one (some x) tx) := by
  obtain ⟨r, e1, e2⟩ := Out.bind_eq_ok.mp e
  cases e2
  rcases books_write h w (by simp [hf]) e1 with ⟨h1, h2⟩ | ⟨h1, h2⟩
  · rw [St.orSay, if_neg (by simp [h1])]; exact ho ▸ h2
  · rw [St.orSay, if_pos h1]; exact books_say h2 x _

theorem countP_taken {α : Type} [DecidableEq α] {f : α → Nat} {p : α → Bool} : ∀ {l : List α} {c : α}, (l.map f).Nodup → c ∈ l →
    (l.filter (fun x => f x ≠ f c)).countP p + (if p c then 1 else 0) = l.countP p
  | d :: l, c, hn, hc => by
    simp only [List.map_cons, List.nodup_cons] at hn
    rcases List.mem_cons.mp hc with rfl | hc
    · have : l.filter (fun x => f x ≠ f c) = l := List.filter_eq_self.mpr fun x hx => by
        have : f x ≠ f c := fun e => hn.1 (List.mem_map.mpr ⟨x, hx, e⟩)
        simpa using this
      rw [List.filter_cons_of_neg (by simp), this, List.countP_cons]
    · have hd : f d ≠ f c := fun e => hn.1 (List.mem_map.mpr ⟨c, hc, e.symm⟩)
      have ih := countP_taken (p := p) hn.2 hc
      rw [List.filter_cons_of_pos (by simpa using hd), List.countP_cons, List.countP_cons]
      omega

/-- A transaction is taken out. -/
theorem books_taken {tx : Nat} {s : St} {b : Nat} (h : Books tx s b) {c : Call} (hc : c ∈ s.calls) :
    ∃ b', Books tx { s with calls := s.calls.filter (·.id ≠ c.id) } b' ∧ b' + one c.cb.owner tx = b := by
  have k := countP_taken (f := fun c : Call => c.id) (p := fun c => decide (c.cb.owner = some tx)) h.ids.nodup hc
  refine ⟨_, ⟨rfl, ⟨h.free.zero, h.free.wait, h.free.load, fun c hc => h.free.calls c (List.mem_of_mem_filter hc), h.free.logs,
    h.free.timers⟩, ⟨(List.filter_sublist.map _).nodup h.ids.nodup, fun c hc => h.ids.le c (List.mem_of_mem_filter hc)⟩⟩, ?_⟩
  have := h.sum
  simp only [said, owed, one, decide_eq_true_eq] at this k ⊢
  omega

theorem books_failAll {tx : Nat} (e : Nat) : ∀ (l : List Call) {s : St} {b : Nat}, (∀ c ∈ l, c.cb.joins ≠ some tx) → Books tx s b →
    Books tx (l.foldl (fun t c => t.fail c.cb e) s) (b + l.countP (fun c => c.cb.owner = some tx))
  | [], _, _, _, h => h
  | c :: l, _, _, hf, h => by
    refine (books_failAll e l (fun d hd => hf d (List.mem_cons_of_mem _ hd)) (books_fail h c.cb e (hf c List.mem_cons_self))).cast ?_
    rw [List.countP_cons]
    simp only [one, decide_eq_true_eq]
    omega

theorem books_logAll {tx : Nat} (e : Nat) : ∀ (l : List LogCb) {s : St} {b : Nat}, (∀ c ∈ l, c.joins ≠ some tx) → Books tx s b →
    Books tx (l.foldl (fun t c => t.logDone c e 0) s) (b + l.countP (fun c => c.owner = some tx))
  | [], _, _, _, h => h
  | c :: l, _, _, hf, h => by
    refine (books_logAll e l (fun d hd => hf d (List.mem_cons_of_mem _ hd)) (books_logDone h c e 0 (hf c List.mem_cons_self))).cast ?_
    rw [List.countP_cons]
    simp only [one, decide_eq_true_eq]
    omega

theorem books_resetPeer {tx : Nat} {s : St} {b : Nat} (h : Books tx s b) (p : Nat) : Books tx (s.resetPeer p) b := by
  unfold St.resetPeer
  have k : Books tx { s with calls := s.calls.filter (·.peer ≠ p) }
      (said s tx + ((s.calls.filter (·.peer ≠ p)).countP (fun c => c.cb.owner = some tx) + s.logs.countP (fun c => c.owner = some tx))) :=
    ⟨rfl, ⟨h.free.zero, h.free.wait, h.free.load, fun c hc => h.free.calls c (List.mem_of_mem_filter hc), h.free.logs,
      h.free.timers⟩, ⟨(List.filter_sublist.map _).nodup h.ids.nodup, fun c hc => h.ids.le c (List.mem_of_mem_filter hc)⟩⟩
  refine (books_failAll _ _ (fun c hc => h.free.calls c (List.mem_of_mem_filter hc)) k).cast ?_
  have hs := h.sum
  have hp : ∀ l : List Call, (l.filter (·.peer ≠ p)).countP (fun c => c.cb.owner = some tx) +
      (l.filter (·.peer = p)).countP (fun c => c.cb.owner = some tx) = l.countP (fun c => c.cb.owner = some tx) := by
    intro l
    induction l with
    | nil => rfl
    | cons c l ih =>
      by_cases hc : c.peer = p
      · rw [List.filter_cons_of_neg (by simpa using hc), List.filter_cons_of_pos (by simpa using hc), List.countP_cons, List.countP_cons]
        omega
      · rw [List.filter_cons_of_pos (by simpa using hc), List.filter_cons_of_neg (by simpa using hc), List.countP_cons, List.countP_cons]
        omega
  have := hp s.calls
  simp only [said, owed] at hs ⊢
  omega

/-- Is this a request of the host with this number, of a kind the enclave knows? -/
def Ev.asks (tx : Nat) : Ev → Bool
  | .host _ .unknown => false
  | .host t _ => t = tx
  | _ => false

/-- Is this a request to join with this number? -/
def Ev.asksJoin (tx : Nat) : Ev → Bool
  | .host t (.join _ _ _) => t = tx
  | _ => false

theorem books_host {tx x : Nat} {s t : St} {b : Nat} (h : Books tx s b) (w : Sends) (r : Req) (hj : (Ev.host x r).asksJoin tx = false)
    (e : s.host w x r = .ok t) : Books tx t (b + if (Ev.host x r).asks tx then 1 else 0) := by
  unfold St.host at e
  split at e
  · rename_i hx
    cases e
    have : (Ev.host x r).asks tx = false := by
      have : x ≠ tx := fun a => h.free.zero (a ▸ hx)
      cases r <;> simp [Ev.asks, this]
    rw [this]
    exact h
  · rename_i hx
    by_cases hu : r = .unknown
    · subst hu
      cases e
      exact h
    have ha : (if (Ev.host x r).asks tx then 1 else 0) = one (some x) tx := by
      cases r <;> simp_all [Ev.asks, one]
    rw [ha]
    have say : ∀ (y : Rep), Books tx (s.say x y) (b + one (some x) tx) := fun y => books_say h x y
    have ask : ∀ p, Books tx (s.send w p (.answer x)) (b + one (some x) tx) := fun p => books_send h w p (.answer x) (by simp [Cb.joins])
    cases r with
    | newClient _ => cases e; exact say _
    | existingClient way v =>
      cases way with
      | error _ => cases e; exact say _
      | reply => cases e; exact say _
      | log => exact books_written h w rfl rfl e
    | closeClient => cases e; exact say _
    | createGroup r =>
      cases e
      simp only [St.createGroup]
      split
      · exact say _
      · split
        · exact say _
        · have k : Books tx { s with tag := .part, loaded := some .created } b :=
            books_of h rfl rfl rfl rfl rfl h.free.wait h.free.load
          exact books_say k _ _
    | join p a c =>
      have hx' : x ≠ tx := by simpa [Ev.asksJoin] using hj
      have : one (some x) tx = 0 := by simp [one, hx']
      rw [this]
      simp only [St.join] at e
      split at e
      · cases e; exact books_sayOther h hx' _
      · split at e
        · cases e; exact books_sayOther h hx' _
        · have k : ∀ p, Books tx { s.clear with tag := .waiting, waitPeer := p, waitTx := x } b :=
            fun p => books_of h rfl rfl rfl rfl rfl hx' h.free.zero.symm
          split at e
          · exact books_joinFromFirst (k _) w e
          · split at e <;> (cases e; exact k _)
    | ping p =>
      cases p with
      | none => cases e; exact say _
      | some p => cases e; exact ask p
    | refresh _ => cases e; exact say _
    | requestVoting v =>
      simp only [St.requestVoting] at e
      split at e
      · cases e; exact say _
      · split at e
        · cases e
        · split at e
          · cases e; exact say _
          · split at e
            · cases e; exact say _
            · cases e; exact ask _
    | status _ =>
      simp only at e
      split at e
      · cases e
      · cases e; exact say _
    | metrics => cases e; exact say _
    | database _ v =>
      simp only at e
      split at e
      · cases e; exact say _
      · exact books_written h w rfl rfl e
    | reconfigure _ =>
      simp only at e
      split at e
      · cases e
      · cases e; exact say _
    | logLevel _ => cases e; exact say _
    | relinquish v =>
      simp only [St.relinquish] at e
      split at e
      · cases e; exact say _
      · split at e
        · cases e
        · split at e
          · cases e; exact say _
          · cases e; exact books_addLog h (.relinquish x) (by simp [LogCb.joins])
    | requestRemoval v =>
      simp only [St.hostRemoval] at e
      split at e
      · cases e; exact say _
      · split at e
        · cases e
        · split at e
          · cases e; exact say _
          · split at e
            · cases e; exact say _
            · cases e; exact ask _
    | hashes _ =>
      simp only at e
      split at e
      · cases e; exact say _
      · split at e
        · cases e
        · cases e; exact say _
    | resetPeer p _ =>
      cases p with
      | none => cases e; exact say _
      | some p => cases e; exact books_say (books_resetPeer h p) x _
    | updateMinimums _ v =>
      simp only at e
      split at e
      · cases e; exact say _
      · exact books_written h w rfl rfl e
    | connectPeer p _ => cases p <;> (cases e; exact say _)
    | metadata _ => cases e; exact say _
    | unknown => exact absurd rfl hu

theorem books_connected {tx : Nat} {s t : St} {b : Nat} (h : Books tx s b) (w : Sends) {p : Nat} {q : Bool}
    (e : s.connected w p q = .ok t) : Books tx t b := by
  have j : Books tx (s.send w p .stamp) b := (books_send h w p .stamp (by simp [Cb.joins])).cast (by simp [one, Cb.owner])
  unfold St.connected at e
  simp only at e
  split at e
  · split at e
    · cases e; exact j
    · exact books_requestReplication j w e
  · split at e
    · exact books_joinFromFirst j w e
    · cases e; exact j
  · split at e
    · cases e
    · cases e; exact j
  · split at e
    · cases e
    · cases e; exact j
  · cases e; exact j

theorem eraseIdx_countP {α : Type} {p : α → Bool} : ∀ {l : List α} {i : Nat} {c : α}, l[i]? = some c →
    (l.eraseIdx i).countP p + (if p c then 1 else 0) = l.countP p
  | d :: l, 0, c, h => by
    simp only [List.getElem?_cons_zero, Option.some.injEq] at h
    subst h
    rw [List.eraseIdx_zero, List.tail_cons, List.countP_cons]
  | d :: l, i + 1, c, h => by
    rw [List.getElem?_cons_succ] at h
    have := eraseIdx_countP (p := p) h
    rw [List.eraseIdx_cons_succ, List.countP_cons, List.countP_cons]
    omega

theorem books_step {tx : Nat} {s t : St} {b : Nat} (h : Books tx s b) (w : Sends) (e : Ev) (hj : e.asksJoin tx = false)
    (hs : step w s e = .ok t) : Books tx t (b + if e.asks tx then 1 else 0) := by
  cases e with
  | host x r => exact books_host h w r hj hs
  | connected p q => exact books_connected h w hs
  | respond p id status a =>
    simp only [step] at hs
    split at hs
    · cases hs; exact h
    · rename_i c hf
      have hid : c.id = id := by simpa using List.find?_some hf
      have hc := List.mem_of_find?_eq_some hf
      subst hid
      split at hs
      · cases hs; exact h
      · obtain ⟨b', k, hb⟩ := books_taken h hc
        split at hs
        · cases hs; exact (books_fail k c.cb _ (h.free.calls c hc)).cast hb
        · exact (books_answered k w (h.free.calls c hc) hs).cast hb
  | expire id =>
    simp only [step] at hs
    split at hs
    · cases hs; exact h
    · rename_i c hf
      have hid : c.id = id := by simpa using List.find?_some hf
      have hc := List.mem_of_find?_eq_some hf
      subst hid
      obtain ⟨b', k, hb⟩ := books_taken h hc
      cases hs
      exact (books_fail k c.cb _ (h.free.calls c hc)).cast hb
  | reset p => cases hs; exact books_resetPeer h p
  | timer n peers =>
    simp only [step] at hs
    split at hs
    · cases hs; exact h
    · rename_i i x hx
      have k : Books tx { s with timers := s.timers.eraseIdx n } b :=
        ⟨h.sum, ⟨h.free.zero, h.free.wait, h.free.load, h.free.calls, h.free.logs, fun y hy => h.free.timers y (List.mem_of_mem_eraseIdx hy)⟩,
          ⟨h.ids.nodup, h.ids.le⟩⟩
      split at hs
      · exact books_requestMembership k w (h.free.timers _ (List.mem_of_getElem? hx)) hs
      · cases hs; exact k
  | logDone n err out =>
    simp only [step] at hs
    split at hs
    · cases hs; exact h
    · split at hs
      · cases hs; exact h
      · rename_i cb hn
        cases hs
        have hm := List.mem_of_getElem? hn
        have k : Books tx { s with logs := s.logs.eraseIdx n } _ :=
          ⟨rfl, ⟨h.free.zero, h.free.wait, h.free.load, h.free.calls, fun c hc => h.free.logs c (List.mem_of_mem_eraseIdx hc), h.free.timers⟩,
            ⟨h.ids.nodup, h.ids.le⟩⟩
        refine (books_logDone k cb err out (h.free.logs cb hm)).cast ?_
        have k2 := eraseIdx_countP (p := fun c => decide (c.owner = some tx)) hn
        have := h.sum
        simp only [said, owed, one, decide_eq_true_eq, Ev.asks, Bool.false_eq_true, if_false] at this k2 ⊢
        omega
  | change me =>
    simp only [step] at hs
    split at hs
    · split at hs
      · cases hs; exact h
      · cases hs
        have k : Books tx { s with tag := .requesting, logs := [] } _ :=
          ⟨rfl, ⟨h.free.zero, h.free.wait, h.free.load, h.free.calls, (fun c hc => by cases hc), h.free.timers⟩, ⟨h.ids.nodup, h.ids.le⟩⟩
        refine (books_logAll _ s.logs h.free.logs k).cast ?_
        have := h.sum
        simp only [said, owed, List.countP_nil, Ev.asks, Bool.false_eq_true, if_false] at this ⊢
        omega
    · cases hs
      split
      · exact books_of h rfl rfl rfl rfl rfl h.free.wait h.free.load
      · exact h
    · cases hs; exact h
  | push id way =>
    simp only [step] at hs
    have k : ∀ m en, Books tx { s with loading := { s.loading with mem := m }, ended := en } b :=
      fun m en => books_of h rfl rfl rfl rfl rfl h.free.wait h.free.load
    split at hs
    · cases hs; exact h
    · split at hs
      · cases hs
      · split at hs
        · cases hs; exact h
        · split at hs
          · cases hs; exact h
          · cases hs; exact k _ _
          · split at hs
            · cases hs; exact k _ _
            · cases hs
          · split at hs
            · cases hs
              split
              · exact k _ _
              · exact k _ _
            · cases hs
  | ask p n =>
    simp only [step] at hs
    split at hs
    · cases hs; exact h
    · exact books_pushes w p n h hs
  | removal log =>
    simp only [step] at hs
    split at hs
    · cases hs; exact h
    · split at hs
      · cases hs
      · cases hs
        split
        · exact h
        · exact (books_addLog h .removal (by simp [LogCb.joins])).cast (by simp [one, LogCb.owner, Ev.asks])
  | other =>
    have : t = s := by
      simp only [step] at hs
      split at hs <;> first | (split at hs <;> cases hs <;> rfl) | (cases hs; rfl)
    exact this ▸ h

theorem books_run {tx : Nat} (w : Sends) : ∀ (es : List Ev) {s t : St} {b : Nat}, Books tx s b → (∀ e ∈ es, e.asksJoin tx = false) →
    run w s es = .ok t → Books tx t (b + es.countP (Ev.asks tx))
  | [], _, _, _, h, _, hr => by cases hr; exact h
  | e :: es, _, _, _, h, hj, hr => by
    rw [run] at hr
    obtain ⟨u, e1, e2⟩ := Out.bind_eq_ok.mp hr
    refine (books_run w es (books_step h w e (hj e List.mem_cons_self) e1) (fun d hd => hj d (List.mem_cons_of_mem _ hd)) e2).cast ?_
    rw [List.countP_cons]
    omega

theorem books_init {tx : Nat} (h : tx ≠ 0) : Books tx init 0 :=
  ⟨rfl, ⟨h, h.symm, h.symm, (fun c hc => by cases hc), (fun c hc => by cases hc), (fun c hc => by cases hc)⟩, ⟨List.nodup_nil, (fun c hc => by cases hc)⟩⟩

end Svr.Core.Host
