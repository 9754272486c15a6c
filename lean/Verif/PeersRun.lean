import Verif.PeersFacts

/-! # Runs of the peer manager: what each event does, and invariants -/

namespace Svr.Peers

open Minimums (Limits Values)

variable {L : Lib}

/-- Where a peer after an event comes from. -/
inductive From (L : Lib) (w : World L) (e : Ev L) (id : Id) (q : Peer L) : Prop
  | same (h : w.peers.find id = some q)
  | new (hn : w.peers.find id = none) (hq : q = .new) (hs : sweeping w = false)
  | dropped {p} (hp : w.peers.find id = some p) (hq : q = p.drop)
  | ran {rnd ts op p r} (he : e = .run id rnd) (hb : w.busy.find id = some (ts, op)) (hp : w.peers.find id = some p)
      (hx : exec L id ts w.lim rnd p op = .ok r) (hq : q = r.peer)

theorem createPeer_from {w : World L} {id k : Id} {q : Peer L} {e : Ev L} (hs : sweeping w = false)
    (h : (createPeer w k).peers.find id = some q) : From L w e id q := by
  unfold createPeer at h
  split at h
  · exact .same h
  · simp only [OMap.find_insert] at h
    split at h
    · cases h; subst_vars; exact .new ‹_› rfl hs
    · exact .same h

theorem step_from {w w' : World L} {e : Ev L} {es : List Eff} (h : step L w e = .ok (w', es)) {id : Id} {q : Peer L}
    (hq : w'.peers.find id = some q) : From L w e id q := by
  cases e with
  | init priv att =>
    simp only [step] at h
    split at h <;> (cases h; exact .same hq)
  | connectToPeer k =>
    simp only [step] at h
    split at h
    · cases h; exact .same hq
    · split at h
      · cases h; exact .same hq
      · cases h; exact createPeer_from (by simpa using ‹¬ sweeping w = true›) hq
  | maybeConnectToPeer k =>
    simp only [step] at h
    split at h
    · cases h; exact .same hq
    · split at h
      · cases h; exact .same hq
      · cases h; exact createPeer_from (by simpa using ‹¬ sweeping w = true›) hq
  | resetPeer k =>
    simp only [step] at h
    repeat' split at h
    all_goals (cases h; exact .same hq)
  | sendToPeer k m =>
    simp only [step] at h
    repeat' split at h
    all_goals (cases h; exact .same hq)
  | refresh att =>
    simp only [step] at h
    repeat' split at h
    all_goals (cases h; exact .same hq)
  | peerMessage k m =>
    simp only [step] at h
    split at h
    · cases h
    split at h
    · cases h; exact .same hq
    split at h
    · split at h
      · cases h; exact .same hq
      · cases h; exact createPeer_from (by simpa using ‹¬ sweeping w = true›) hq
    all_goals
      split at h
      all_goals (cases h; exact .same hq)
  | lock i =>
    simp only [step] at h
    repeat' split at h
    all_goals (cases h; exact .same hq)
  | run k rnd =>
    simp only [step] at h
    split at h
    · obtain ⟨r, hx, h⟩ := Out.bind_eq_ok.mp h
      cases h
      simp only [OMap.find_insert] at hq
      split at hq
      · cases hq; subst_vars; exact .ran rfl ‹_› ‹_› hx rfl
      · exact .same hq
    · cases h; exact .same hq
  | setTime secs timeout =>
    simp only [step] at h
    repeat' split at h
    all_goals (cases h; exact .same hq)
  | sweepStart =>
    simp only [step] at h
    split at h <;> (cases h; exact .same hq)
  | sweepNext =>
    simp only [step] at h
    split at h
    · cases h; exact .same hq
    · split at h
      · obtain ⟨⟨r, b⟩, hm, h⟩ := Out.bind_eq_ok.mp h
        cases h
        simp only [OMap.find_insert] at hq
        split at hq
        · cases hq; subst_vars
          rcases maybeDisconnect_cases hm with ⟨h, -, -⟩ | ⟨h, -⟩
          · rw [h]; exact .same ‹_›
          · exact .dropped ‹_› h
        · exact .same hq
      · cases h; exact .same hq
    · cases h; exact .same hq
  | setLim u =>
    simp only [step] at h
    split at h <;> (cases h; exact .same hq)
  | minStart =>
    simp only [step] at h
    split at h <;> (cases h; exact .same hq)
  | minCheck =>
    simp only [step] at h
    repeat' split at h
    all_goals (cases h; exact .same hq)
  | minNext =>
    simp only [step] at h
    split at h
    · split at h
      · cases h
        simp only [OMap.find_insert] at hq
        split at hq
        · cases hq; subst_vars; exact .dropped ‹_› rfl
        · exact .same hq
      · cases h; exact .same hq
    · cases h; exact .same hq

/-- Where the holder of a lock comes from. -/
theorem step_busy {w w' : World L} {e : Ev L} {es : List Eff} (h : step L w e = .ok (w', es)) {id : Id} {ts : Int} {op : Op L}
    (hq : w'.busy.find id = some (ts, op)) :
    w.busy.find id = some (ts, op) ∨ (ts = w.time ∧ w.busy.find id = none ∧ (id, op) ∈ w.waiting ∧ w'.time = w.time) := by
  have hc : ∀ k, (createPeer w k).busy = w.busy := by intro k; unfold createPeer; split <;> rfl
  cases e with
  | lock i =>
    simp only [step] at h
    split at h
    · cases h; exact .inl hq
    · split at h
      · cases h; exact .inl hq
      · cases h
        simp only [OMap.find_insert] at hq
        split at hq
        · cases hq; subst_vars; exact .inr ⟨rfl, ‹_›, List.mem_of_getElem? ‹_›, rfl⟩
        · exact .inl hq
  | run k rnd =>
    simp only [step] at h
    split at h
    · obtain ⟨r, hx, h⟩ := Out.bind_eq_ok.mp h
      cases h
      simp only [OMap.find_erase] at hq
      split at hq
      · cases hq
      · exact .inl hq
    · cases h; exact .inl hq
  | sweepNext =>
    simp only [step] at h
    split at h
    · cases h; exact .inl hq
    · split at h
      · obtain ⟨⟨r, b⟩, hm, h⟩ := Out.bind_eq_ok.mp h
        cases h; exact .inl hq
      · cases h; exact .inl hq
    · cases h; exact .inl hq
  | _ =>
    simp only [step] at h
    repeat' split at h
    all_goals first
      | (cases h; done)
      | (cases h; exact .inl hq)
      | (cases h; left; have hq' := hq; simp only [await, hc] at hq'; exact hq')

theorem run_append (w : World L) : ∀ (a b : List (Ev L)), run L w (a ++ b) =
    (run L w a >>= fun x => run L x.1 b >>= fun y => pure (y.1, x.2 ++ y.2))
  | [], b => by
    simp only [List.nil_append, run, Out.bind_ok]
    cases run L w b <;> rfl
  | e :: a, b => by
    simp only [List.cons_append, run]
    cases hs : step L w e with
    | abort => rfl
    | ub => rfl
    | ok x =>
      simp only [Out.bind_ok]
      rw [run_append x.1 a b]
      cases run L x.1 a with
      | abort => rfl
      | ub => rfl
      | ok y =>
        simp only [Out.bind_ok, Out.pure_eq]
        cases run L y.1 b with
        | abort => rfl
        | ub => rfl
        | ok z => simp

theorem run_snoc {w w' : World L} {evs : List (Ev L)} {e : Ev L} {es : List Eff} (h : run L w (evs ++ [e]) = .ok (w', es)) :
    ∃ w1 e1 e2, run L w evs = .ok (w1, e1) ∧ step L w1 e = .ok (w', e2) ∧ es = e1 ++ e2 := by
  rw [run_append] at h
  obtain ⟨⟨w1, e1⟩, h1, h⟩ := Out.bind_eq_ok.mp h
  obtain ⟨⟨w2, e2⟩, h2, h⟩ := Out.bind_eq_ok.mp h
  cases h
  simp only [run] at h2
  obtain ⟨⟨w3, e3⟩, h3, h2⟩ := Out.bind_eq_ok.mp h2
  cases h2
  exact ⟨w1, e1, _, h1, h3, by simp⟩

theorem run_snoc_ok {w w1 w' : World L} {evs : List (Ev L)} {e : Ev L} {e1 e2 : List Eff} (h : run L w evs = .ok (w1, e1))
    (hs : step L w1 e = .ok (w', e2)) : run L w (evs ++ [e]) = .ok (w', e1 ++ e2) := by
  rw [run_append, h]
  simp only [Out.bind_ok, run, hs, Out.pure_eq, List.append_nil]

/-- Anything that each event keeps holds at the end. -/
theorem run_inv {P : World L → Prop} {ok : Ev L → Prop} (hP : ∀ w w' e es, ok e → P w → step L w e = .ok (w', es) → P w') :
    ∀ {evs : List (Ev L)} {w w' : World L} {es : List Eff}, (∀ e ∈ evs, ok e) → P w → run L w evs = .ok (w', es) → P w'
  | [], w, w', es, _, h, hr => by cases hr; exact h
  | e :: evs, w, w', es, ho, h, hr => by
    simp only [run] at hr
    obtain ⟨⟨w1, e1⟩, h1, hr⟩ := Out.bind_eq_ok.mp hr
    obtain ⟨⟨w2, e2⟩, h2, hr⟩ := Out.bind_eq_ok.mp hr
    cases hr
    exact run_inv hP (fun x hx => ho x (.tail _ hx)) (hP _ _ _ _ (ho _ (.head _)) h h1) h2

/-- Every thread works on a peer that exists, and none gives a `syn` to `Recv`. -/
structure Sound (w : World L) : Prop where
  waiting : ∀ x ∈ w.waiting, (∃ p, w.peers.find x.1 = some p) ∧ ∀ b, x.2 ≠ .recv (.syn b)
  busy : ∀ id ts op, w.busy.find id = some (ts, op) → (∃ p, w.peers.find id = some p) ∧ ∀ b, op ≠ .recv (.syn b)

theorem start_sound (lim : Limits) : Sound (start L lim) := ⟨fun _ h => (by cases h), fun _ _ _ h => (by cases h)⟩

/-- Peers are never removed. -/
theorem step_known {w w' : World L} {e : Ev L} {es : List Eff} (h : step L w e = .ok (w', es)) {id : Id} {p : Peer L}
    (hp : w.peers.find id = some p) : ∃ q, w'.peers.find id = some q := by
  have hc : ∀ k, ∃ q, (createPeer w k).peers.find id = some q := by
    intro k
    unfold createPeer
    split
    · exact ⟨p, hp⟩
    · simp only [OMap.find_insert]; split
      · exact ⟨_, rfl⟩
      · exact ⟨p, hp⟩
  cases e with
  | run k rnd =>
    simp only [step] at h
    split at h
    · obtain ⟨r, hx, h⟩ := Out.bind_eq_ok.mp h
      cases h
      simp only [OMap.find_insert]; split
      · exact ⟨_, rfl⟩
      · exact ⟨p, hp⟩
    · cases h; exact ⟨p, hp⟩
  | sweepNext =>
    simp only [step] at h
    split at h
    · cases h; exact ⟨p, hp⟩
    · split at h
      · obtain ⟨⟨r, b⟩, hm, h⟩ := Out.bind_eq_ok.mp h
        cases h
        simp only [OMap.find_insert]; split
        · exact ⟨_, rfl⟩
        · exact ⟨p, hp⟩
      · cases h; exact ⟨p, hp⟩
    · cases h; exact ⟨p, hp⟩
  | minNext =>
    simp only [step] at h
    split at h
    · split at h
      · cases h
        simp only [OMap.find_insert]; split
        · exact ⟨_, rfl⟩
        · exact ⟨p, hp⟩
      · cases h; exact ⟨p, hp⟩
    · cases h; exact ⟨p, hp⟩
  | _ =>
    simp only [step] at h
    repeat' split at h
    all_goals first
      | (cases h; done)
      | (cases h; exact ⟨p, hp⟩)
      | (cases h; exact hc _)

theorem createPeer_known (w : World L) (id : Id) : ∃ q, (createPeer w id).peers.find id = some q := by
  unfold createPeer
  split
  · exact ⟨_, ‹_›⟩
  · exact ⟨_, OMap.find_insert_self ..⟩

/-- Threads that wait after an event waited before, or the event brought them. -/
theorem step_waiting {w w' : World L} {e : Ev L} {es : List Eff} (h : step L w e = .ok (w', es)) {x : Id × Op L}
    (hx : x ∈ w'.waiting) : x ∈ w.waiting ∨ ((∃ p, w'.peers.find x.1 = some p) ∧ ∀ b, x.2 ≠ .recv (.syn b)) := by
  have hc : ∀ k, (createPeer w k).waiting = w.waiting := by intro k; unfold createPeer; split <;> rfl
  cases e with
  | run k rnd =>
    simp only [step] at h
    split at h
    · obtain ⟨r, hx, h⟩ := Out.bind_eq_ok.mp h
      cases h; exact .inl ‹_›
    · cases h; exact .inl hx
  | sweepNext =>
    simp only [step] at h
    split at h
    · cases h; exact .inl hx
    · split at h
      · obtain ⟨⟨r, b⟩, hm, h⟩ := Out.bind_eq_ok.mp h
        cases h; exact .inl ‹_›
      · cases h; exact .inl hx
    · cases h; exact .inl hx
  | lock i =>
    simp only [step] at h
    repeat' split at h
    all_goals first
      | (cases h; exact .inl hx)
      | (cases h; exact .inl (List.mem_of_mem_eraseIdx hx))
  | refresh att =>
    simp only [step] at h
    split at h
    · cases h; exact .inl hx
    · cases h
      rcases List.mem_append.mp hx with hx | hx
      · exact .inl hx
      · obtain ⟨k, hk, rfl⟩ := List.mem_map.mp hx
        obtain ⟨y, hy, rfl⟩ := List.mem_map.mp hk
        exact .inr ⟨⟨y.2, OMap.mem_list.mp hy⟩, fun b hb => by cases hb⟩
  | _ =>
    simp only [step] at h
    repeat' split at h
    all_goals first
      | (cases h; done)
      | (cases h; exact .inl hx)
      | (cases h
         simp only [await, hc, List.mem_append, List.mem_singleton] at hx
         rcases hx with hx | rfl
         · exact .inl hx
         · refine .inr ⟨by first | exact createPeer_known _ _ | exact ⟨_, ‹_›⟩, fun b hb => ?_⟩
           first
             | (cases hb; done)
             | (injection hb with hb; simp_all))

theorem step_sound {w w' : World L} {e : Ev L} {es : List Eff} (hw : Sound w) (h : step L w e = .ok (w', es)) : Sound w' := by
  constructor
  · intro x hx
    rcases step_waiting h hx with hx | hx
    · obtain ⟨⟨p, hp⟩, ho⟩ := hw.waiting x hx
      exact ⟨step_known h hp, ho⟩
    · exact hx
  · intro id ts op hb
    rcases step_busy h hb with hb | ⟨-, -, hx, -⟩
    · obtain ⟨⟨p, hp⟩, ho⟩ := hw.busy id ts op hb
      exact ⟨step_known h hp, ho⟩
    · obtain ⟨⟨p, hp⟩, ho⟩ := hw.waiting _ hx
      exact ⟨step_known h hp, ho⟩

theorem run_sound {w w' : World L} {evs : List (Ev L)} {es : List Eff} (hw : Sound w) (h : run L w evs = .ok (w', es)) : Sound w' :=
  run_inv (ok := fun _ => True) (fun _ _ _ _ _ hw h => step_sound hw h) (fun _ _ => trivial) hw h

end Svr.Peers
