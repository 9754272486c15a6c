import Verif.ClientsRun

/-! # Client sessions: how objects begin and end -/

namespace Svr.Clients

variable {L : Lib}

theorem told_append : ∀ (a b : List (Eff L)), told (a ++ b) = told a ++ told b
  | [], b => rfl
  | e :: a, b => by
    rcases e with ⟨tx, r⟩ | _ | _
    · cases r <;> simp [told, told_append a b]
    · simp [told, told_append a b]
    · simp [told, told_append a b]

theorem mem_told {id : Nat} : ∀ {l : List (Eff L)}, id ∈ told l ↔ ∃ tx p a, Eff.reply tx (.newClient id p a) ∈ l
  | [] => by simp [told]
  | e :: t => by
    have ih := mem_told (id := id) (l := t)
    rcases e with ⟨tx, r⟩ | _ | _
    · cases r with
      | newClient id' p a =>
        simp only [told, List.mem_cons, ih]
        constructor
        · rintro (rfl | ⟨tx, p, a, h⟩)
          · exact ⟨_, _, _, .inl rfl⟩
          · exact ⟨_, _, _, .inr h⟩
        · rintro ⟨tx, p, a, h | h⟩
          · cases h; exact .inl rfl
          · exact .inr ⟨_, _, _, h⟩
      | _ => simp [told, ih]
    · simp [told, ih]
    · simp [told, ih]

/-- The object that a thread is about to make, or to announce. -/
def Task.born : Task L → Option Nat
  | .newArgs _ h _ => some h
  | .newInit _ h _ _ _ => some h
  | .newReply _ h => some h
  | _ => none

/-- The id that the thread was given by the host. -/
def Task.names : Task L → Option Nat
  | .existing _ id _ => some id
  | .handshaking _ id _ _ => some id
  | .finish _ id _ _ => some id
  | .decrypt _ id _ _ => some id
  | .respond _ id _ _ => some id
  | .encrypt _ id _ _ => some id
  | .log _ id _ _ => some id
  | .write _ id _ _ => some id
  | .drop _ id _ => some id
  | .close _ id => some id
  | .done _ id _ => some id
  | .effect _ id _ _ => some id
  | .encryptEff _ id _ _ => some id
  | _ => none

theorem encrypt_effects {k : Nat} {resp : L.Resp} {c c' : Client L} {es : List (Eff L)} {r : Except Err Bytes}
    (h : encryptResponse L k resp c = .ok (c', es, r)) : told es = [] ∧ ∀ j q n p, Eff.sealed j q n p ∈ es → j = k := by
  unfold encryptResponse at h
  split at h
  · split at h
    · cases h; exact ⟨rfl, by simp⟩
    · obtain ⟨⟨n, o⟩, -, h⟩ := Out.bind_eq_ok.mp h
      cases o <;> cases h <;> exact ⟨rfl, by simp; intros; assumption⟩
  · cases h; exact ⟨rfl, by simp⟩

/-- What a step of a thread leaves as it is. -/
structure Frame (L : Lib) (w : World L) (t : Task L) (r : Ret L) : Prop where
  tasks : r.1.tasks = w.tasks
  gen : r.1.idGen = w.idGen
  next : r.1.nextTask = w.nextTask
  born : ∀ t', r.2.1 = some t' → ∀ h, t'.born = some h → t.born = some h
  names : ∀ t', r.2.1 = some t' → ∀ id, t'.names = some id → t.names = some id
  holds : ∀ t', r.2.1 = some t' → ∀ h, t'.holds = some h → t.holds = some h ∨ ∃ id, w.clients.find id = some h
  clients : (r.1.clients = w.clients ∧ ∀ tx h, r.2.1 ≠ some (.newReply tx h)) ∨
    (∃ id, t.names = some id ∧ r.1.clients = w.clients.erase id ∧ r.2.1 = none) ∨
    (∃ tx h, t.makes = some h ∧ r.1.clients = w.clients.insert (idOf h) h ∧ r.2.1 = some (.newReply tx h))
  pending : ∀ x ∈ r.1.pending, x ∈ w.pending ∨ t.names = some x.2
  told : Clients.told r.2.2 = [] ∨ ∃ tx h, t = .newReply tx h ∧ Clients.told r.2.2 = [idOf h] ∧ r.2.1 = none
  sealed_ : ∀ h k n p, Eff.sealed h k n p ∈ r.2.2 → t.holds = some h

theorem frame_same {w : World L} {t t' : Task L} (hb : t'.born = none) (hn : t'.names = t.names)
    (hh : ∀ h, t'.holds = some h → t.holds = some h ∨ ∃ id, w.clients.find id = some h) {c : OMap Nat (Client L)} :
    Frame L w t ({ w with objs := c }, some t', []) where
  tasks := rfl
  gen := rfl
  next := rfl
  born _ e h h' := by cases e; rw [hb] at h'; cases h'
  names _ e id h := by cases e; rw [← hn]; exact h
  holds _ e := by cases e; exact hh
  clients := .inl ⟨rfl, fun tx h e => by cases e; cases hb⟩
  pending _ h := .inl h
  told := .inl rfl
  sealed_ _ _ _ _ h := by cases h

theorem frame_end {w : World L} {t : Task L} {es : List (Eff L)} (ht : told es = []) (hs : ∀ h k n p, Eff.sealed h k n p ∈ es → t.holds = some h)
    {c : OMap Nat (Client L)} : Frame L w t ({ w with objs := c }, none, es) where
  tasks := rfl
  gen := rfl
  next := rfl
  born _ e := by cases e
  names _ e := by cases e
  holds _ e := by cases e
  clients := .inl ⟨rfl, fun tx h e => by cases e⟩
  pending _ h := .inl h
  told := .inl ht
  sealed_ := hs

theorem frame_seal {w : World L} {t : Task L} {tx id h : Nat} {resp : L.Resp} {c : Client L} {r : Ret L} (hn : t.names = some id)
    (hh : t.holds = some h)
    (hr : (do match ← encryptResponse L h resp c with
      | (c, es, .error e) => pure ({ w with objs := w.objs.insert h c }, some (.drop tx id e), es)
      | (c, es, .ok ct) => pure ({ w with objs := w.objs.insert h c }, none, es ++ [.reply tx (.data ct)]) : Out (Ret L)) = .ok r) :
    Frame L w t r := by
  obtain ⟨⟨c', es, x⟩, he, hr⟩ := Out.bind_eq_ok.mp hr
  obtain ⟨e1, e2⟩ := encrypt_effects he
  cases x with
  | error e =>
    cases hr
    refine { frame_same (t' := .drop tx id e) rfl hn.symm (fun _ e => by cases e) with told := .inl e1, sealed_ := fun j k n p hj => ?_ }
    rw [e2 j k n p hj]; exact hh
  | ok ct =>
    cases hr
    refine frame_end (by rw [told_append, e1]; rfl) (fun j k n p hj => ?_)
    rcases List.mem_append.mp hj with hj | hj
    · rw [e2 j k n p hj]; exact hh
    · cases List.mem_singleton.mp hj

theorem stepTask_frame {w : World L} {rnd : Bytes} {raft : Bool} {t : Task L} {r : Ret L} (hr : stepTask L w rnd raft t = .ok r) :
    Frame L w t r := by
  cases t with
  | newArgs tx h auth =>
    cases hr
    exact { tasks := rfl, gen := rfl, next := rfl, born := fun _ e => by cases e; exact fun _ h => h
            names := fun _ e => by cases e; exact fun _ h => by cases h
            holds := fun _ e => by cases e; exact fun _ h => by cases h
            clients := .inl ⟨rfl, fun _ _ e => by cases e⟩, pending := fun _ h => .inl h, told := .inl rfl, sealed_ := fun _ _ _ _ h => by cases h }
  | newInit tx h auth dh att =>
    simp only [stepTask] at hr
    split at hr
    · cases hr
      exact frame_end rfl (fun _ _ _ _ h => by cases List.mem_singleton.mp h)
    · cases hr
      exact { tasks := rfl, gen := rfl, next := rfl, born := fun _ e => by cases e; exact fun _ h => h
              names := fun _ e => by cases e; exact fun _ h => by cases h
              holds := fun _ e => by cases e; exact fun _ h => by cases h
              clients := .inr (.inr ⟨tx, h, rfl, rfl, rfl⟩), pending := fun _ h => .inl h, told := .inl rfl, sealed_ := fun _ _ _ _ h => by cases h }
  | newReply tx h =>
    simp only [stepTask] at hr
    split at hr
    · split at hr
      · cases hr
      · cases hr
        exact { frame_end (w := w) (t := .newReply tx h) (es := []) (c := w.objs) rfl (fun _ _ _ _ h => by cases h) with
                told := .inr ⟨tx, h, rfl, rfl, rfl⟩, sealed_ := fun _ _ _ _ h => by cases List.mem_singleton.mp h }
    · cases hr
  | existing tx id data =>
    simp only [stepTask] at hr
    split at hr
    · cases hr; (refine frame_same ?_ ?_ ?_; rfl; rfl; (intro _ e; cases e))
    · rename_i h hc
      cases hr; (refine frame_same ?_ ?_ ?_; rfl; rfl; (intro _ e; cases e; exact .inr ⟨id, hc⟩))
  | handshaking tx id h data =>
    simp only [stepTask] at hr
    split at hr
    · cases hr
    · cases hr
      split
      · (refine frame_same ?_ ?_ ?_; rfl; rfl; (exact fun _ e => .inl e))
      · (refine frame_same ?_ ?_ ?_; rfl; rfl; (exact fun _ e => .inl e))
  | finish tx id h data =>
    simp only [stepTask] at hr
    split at hr
    · cases hr
    · split at hr
      · cases hr; (refine frame_same ?_ ?_ ?_; rfl; rfl; (intro _ e; cases e))
      · cases hr; exact frame_end rfl (fun _ _ _ _ h => by cases List.mem_singleton.mp h)
  | decrypt tx id h data =>
    simp only [stepTask] at hr
    split at hr
    · cases hr
    · obtain ⟨⟨c', x⟩, -, hr⟩ := Out.bind_eq_ok.mp hr
      cases x with
      | error e => cases hr; (refine frame_same ?_ ?_ ?_; rfl; rfl; (intro _ e; cases e))
      | ok req => cases hr; (refine frame_same ?_ ?_ ?_; rfl; rfl; (exact fun _ e => .inl e))
  | respond tx id h req =>
    simp only [stepTask] at hr
    split at hr
    · cases hr
    · split at hr
      · cases hr; (refine frame_same ?_ ?_ ?_; rfl; rfl; (intro _ e; cases e))
      · cases hr; (refine frame_same ?_ ?_ ?_; rfl; rfl; (exact fun _ e => .inl e))
      · cases hr; (refine frame_same ?_ ?_ ?_; rfl; rfl; (exact fun _ e => .inl e))
  | encrypt tx id h resp =>
    simp only [stepTask] at hr
    split at hr
    · cases hr
    · exact frame_seal rfl rfl hr
  | encryptEff tx id h resp =>
    simp only [stepTask] at hr
    split at hr
    · cases hr
    · exact frame_seal rfl rfl hr
  | log tx id h req =>
    simp only [stepTask] at hr
    split at hr
    · cases hr
    · split at hr
      · cases hr; (refine frame_same ?_ ?_ ?_; rfl; rfl; (intro _ e; cases e))
      split at hr
      · cases hr; (refine frame_same ?_ ?_ ?_; rfl; rfl; (intro _ e; cases e))
      split at hr
      · cases hr; (refine frame_same ?_ ?_ ?_; rfl; rfl; (intro _ e; cases e))
      · cases hr; (refine frame_same ?_ ?_ ?_; rfl; rfl; (exact fun _ e => .inl e))
  | write tx id h data =>
    simp only [stepTask] at hr
    split at hr
    · cases hr
      refine { frame_end (w := w) (t := .write tx id h data) (es := [.propose tx id data]) (c := w.objs) rfl
          (fun _ _ _ _ h => by cases List.mem_singleton.mp h) with pending := fun x hx => ?_ }
      rcases List.mem_append.mp hx with hx | hx
      · exact .inl hx
      · rw [List.mem_singleton.mp hx]; exact .inr rfl
    · cases hr; (refine frame_same ?_ ?_ ?_; rfl; rfl; (intro _ e; cases e))
  | drop tx id e =>
    cases hr
    exact { frame_end (w := w) (t := .drop tx id e) (es := [.reply tx (.err e)]) (c := w.objs) rfl
        (fun _ _ _ _ h => by cases List.mem_singleton.mp h) with clients := .inr (.inl ⟨id, rfl, rfl, rfl⟩) }
  | close tx id =>
    cases hr
    exact { frame_end (w := w) (t := .close tx id) (es := [.reply tx .ok]) (c := w.objs) rfl
        (fun _ _ _ _ h => by cases List.mem_singleton.mp h) with clients := .inr (.inl ⟨id, rfl, rfl, rfl⟩) }
  | done tx id res =>
    simp only [stepTask] at hr
    split at hr
    · cases hr; (refine frame_same ?_ ?_ ?_; rfl; rfl; (intro _ e; cases e))
    · cases hr; (refine frame_same ?_ ?_ ?_; rfl; rfl; (intro _ e; cases e))
    · split at hr
      · cases hr; (refine frame_same ?_ ?_ ?_; rfl; rfl; (intro _ e; cases e))
      · rename_i h hc
        cases hr; (refine frame_same ?_ ?_ ?_; rfl; rfl; (intro _ e; cases e; exact .inr ⟨id, hc⟩))
  | effect tx id h e =>
    simp only [stepTask] at hr
    split at hr
    · cases hr
    · split at hr
      · cases hr; (refine frame_same ?_ ?_ ?_; rfl; rfl; (intro _ e; cases e))
      · cases hr; (refine frame_same ?_ ?_ ?_; rfl; rfl; (exact fun _ e => .inl e))
  | attest dh config limits =>
    simp only [stepTask] at hr
    split at hr
    · cases hr; exact frame_end rfl (fun _ _ _ _ h => by cases h)
    split at hr
    · cases hr; exact frame_end rfl (fun _ _ _ _ h => by cases h)
    · cases hr; (refine frame_same ?_ ?_ ?_; rfl; rfl; (intro _ e; cases e))
  | store dh att =>
    cases hr
    exact { frame_end (w := w) (t := .store dh att) (es := []) (c := w.objs) rfl (fun _ _ _ _ h => by cases h) with
      tasks := rfl }

/-! ## Births -/

/-- Each object is made once and announced once. -/
structure Births (w : World L) (effs : List (Eff L)) : Prop where
  uniq : ∀ i j t u h, w.tasks.find i = some t → w.tasks.find j = some u → t.born = some h → u.born = some h → i = j
  lt : ∀ i t h, w.tasks.find i = some t → t.born = some h → 1 ≤ h ∧ h < w.idGen
  told : ∀ id ∈ Clients.told effs, ∃ h, id = idOf h ∧ 1 ≤ h ∧ h < w.idGen ∧ ∀ i t, w.tasks.find i = some t → t.born ≠ some h
  nodup : (Clients.told effs).Nodup
  next : ∀ i t, w.tasks.find i = some t → i < w.nextTask
  pos : 1 ≤ w.idGen

theorem idOf_eq {h : Nat} (hb : h < 2 ^ 64) : idOf h = h := Nat.mod_eq_of_lt hb

theorem spawn_cases {w : World L} {t : Task L} {i : Nat} {u : Task L} (h : (spawn w t).tasks.find i = some u) :
    (i = w.nextTask ∧ u = t) ∨ w.tasks.find i = some u := by
  unfold spawn at h
  by_cases hi : i = w.nextTask
  · subst hi; rw [OMap.find_insert_self] at h; cases h; exact .inl ⟨rfl, rfl⟩
  · rw [OMap.find_insert_ne _ _ (by first | exact hi | exact Ne.symm hi)] at h; exact .inr h

theorem Births.spawn {w : World L} {effs : List (Eff L)} (hb : Births w effs) {t : Task L} (ht : t.born = none) :
    Births (Clients.spawn w t) effs where
  uniq i j a b h e1 e2 m1 m2 := by
    rcases spawn_cases e1 with ⟨rfl, rfl⟩ | e1
    · rw [ht] at m1; cases m1
    rcases spawn_cases e2 with ⟨rfl, rfl⟩ | e2
    · rw [ht] at m2; cases m2
    exact hb.uniq i j a b h e1 e2 m1 m2
  lt i a h e m := by
    rcases spawn_cases e with ⟨rfl, rfl⟩ | e
    · rw [ht] at m; cases m
    exact hb.lt i a h e m
  told id hid := by
    obtain ⟨h, h1, h2, h3, h4⟩ := hb.told id hid
    refine ⟨h, h1, h2, h3, fun i a e m => ?_⟩
    rcases spawn_cases e with ⟨rfl, rfl⟩ | e
    · rw [ht] at m; cases m
    exact h4 i a e m
  nodup := hb.nodup
  next i a e := by
    rcases spawn_cases e with ⟨rfl, rfl⟩ | e
    · exact Nat.lt_succ_self _
    · exact Nat.lt_succ_of_lt (hb.next i a e)
  pos := hb.pos

theorem Births.same {w w' : World L} {effs : List (Eff L)} (hb : Births w effs) (h1 : w'.tasks = w.tasks) (h2 : w'.idGen = w.idGen)
    (h3 : w'.nextTask = w.nextTask) : Births w' effs := by
  obtain ⟨a, b, c, d, e, f⟩ := hb
  constructor <;> (try simp only [h1, h2, h3]) <;> assumption

/-- A step of thread `i`, as it changes the threads. -/
theorem run_cases {w w' : World L} {i : Nat} {rnd : Bytes} {raft : Bool} {es : List (Eff L)} (hs : step L w (.run i rnd raft) = .ok (w', es)) :
    (w' = w ∧ es = []) ∨ ∃ t r, w.tasks.find i = some t ∧ stepTask L w rnd raft t = .ok r ∧ es = r.2.2 ∧
      ((r.2.1 = none ∧ w' = { r.1 with tasks := r.1.tasks.erase i }) ∨
       ∃ t', r.2.1 = some t' ∧ w' = { r.1 with tasks := r.1.tasks.insert i t' }) := by
  simp only [step] at hs
  split at hs
  · cases hs; exact .inl ⟨rfl, rfl⟩
  · rename_i t ht
    obtain ⟨⟨w1, nx, es1⟩, hr, hs⟩ := Out.bind_eq_ok.mp hs
    cases nx with
    | none => cases hs; exact .inr ⟨t, _, ht, hr, rfl, .inl ⟨rfl, rfl⟩⟩
    | some t' => cases hs; exact .inr ⟨t, _, ht, hr, rfl, .inr ⟨t', rfl, rfl⟩⟩

/-- The threads after a step of thread `i`. -/
theorem task_cases {w w' : World L} {i : Nat} {t : Task L} {r : Ret L} (hf : Frame L w t r)
    (h : (r.2.1 = none ∧ w' = { r.1 with tasks := r.1.tasks.erase i }) ∨
       ∃ t', r.2.1 = some t' ∧ w' = { r.1 with tasks := r.1.tasks.insert i t' }) {j : Nat} {u : Task L}
    (hj : w'.tasks.find j = some u) : (j = i ∧ r.2.1 = some u) ∨ (j ≠ i ∧ w.tasks.find j = some u) := by
  by_cases hji : j = i
  · subst hji
    rcases h with ⟨-, rfl⟩ | ⟨t', ht', rfl⟩
    · rw [OMap.find_erase_self] at hj; cases hj
    · rw [OMap.find_insert_self] at hj; cases hj; exact .inl ⟨rfl, ht'⟩
  · refine .inr ⟨hji, ?_⟩
    rcases h with ⟨-, rfl⟩ | ⟨t', ht', rfl⟩
    · rw [hf.tasks, OMap.find_erase, if_neg (by first | exact hji | exact Ne.symm hji)] at hj; exact hj
    · rw [hf.tasks, OMap.find_insert_ne _ _ (by first | exact hji | exact Ne.symm hji)] at hj; exact hj

theorem step_gen {w w' : World L} {e : Ev L} {es : List (Eff L)} (hs : step L w e = .ok (w', es)) :
    w'.idGen = w.idGen + (auths [e]).length := by
  cases e with
  | newClient tx auth => cases hs; rfl
  | existing tx id data => cases hs; rfl
  | close tx id => cases hs; rfl
  | refresh => cases hs; rfl
  | rotate =>
    simp only [step] at hs
    split at hs <;> (cases hs; rfl)
  | complete =>
    simp only [step] at hs
    split at hs <;> (cases hs; rfl)
  | run i rnd raft =>
    rcases run_cases hs with ⟨rfl, rfl⟩ | ⟨t, r, ht, hr, rfl, h⟩
    · rfl
    · have := (stepTask_frame hr).gen
      rcases h with ⟨-, rfl⟩ | ⟨t', ht', rfl⟩ <;> exact this

theorem step_births {w w' : World L} {effs es : List (Eff L)} (hb : Births w effs) {e : Ev L} (hs : step L w e = .ok (w', es))
    (hm : w'.idGen ≤ 2 ^ 64) : Births w' (effs ++ es) := by
  cases e with
  | newClient tx auth =>
    cases hs
    rw [List.append_nil]
    exact {
      uniq := fun i j a b h e1 e2 m1 m2 => by
        rcases spawn_cases e1 with ⟨rfl, rfl⟩ | e1
        · rcases spawn_cases e2 with ⟨rfl, rfl⟩ | e2
          · rfl
          · cases m1; have := (hb.lt _ _ _ e2 m2).2; omega
        rcases spawn_cases e2 with ⟨rfl, rfl⟩ | e2
        · cases m2; have := (hb.lt _ _ _ e1 m1).2; omega
        exact hb.uniq i j a b h e1 e2 m1 m2
      lt := fun i a h e m => by
        rcases spawn_cases e with ⟨rfl, rfl⟩ | e
        · cases m; exact ⟨hb.pos, Nat.lt_succ_self _⟩
        · exact ⟨(hb.lt i a h e m).1, Nat.lt_succ_of_lt (hb.lt i a h e m).2⟩
      told := fun id hid => by
        obtain ⟨h, h1, h2, h3, h4⟩ := hb.told id hid
        refine ⟨h, h1, h2, Nat.lt_succ_of_lt h3, fun i a e m => ?_⟩
        rcases spawn_cases e with ⟨rfl, rfl⟩ | e
        · cases m; omega
        exact h4 i a e m
      nodup := hb.nodup
      next := fun i a e => by
        rcases spawn_cases e with ⟨rfl, rfl⟩ | e
        · exact Nat.lt_succ_self _
        · exact Nat.lt_succ_of_lt (hb.next i a e)
      pos := Nat.le_succ_of_le hb.pos }
  | existing tx id data => cases hs; rw [List.append_nil]; exact hb.spawn rfl
  | close tx id => cases hs; rw [List.append_nil]; exact hb.spawn rfl
  | refresh => cases hs; rw [List.append_nil]; exact hb.spawn rfl
  | rotate =>
    simp only [step] at hs
    split at hs
    · cases hs; rw [List.append_nil]; exact hb
    · cases hs; rw [List.append_nil]; exact hb.spawn rfl
  | complete i res =>
    simp only [step] at hs
    split at hs
    · cases hs; rw [List.append_nil]; exact hb
    · cases hs; rw [List.append_nil]
      exact Births.spawn (w := { w with pending := w.pending.eraseIdx i }) (hb.same rfl rfl rfl) rfl
  | run i rnd raft =>
    rcases run_cases hs with ⟨rfl, rfl⟩ | ⟨t, r, ht, hr, rfl, h⟩
    · rw [List.append_nil]; exact hb
    have hf := stepTask_frame hr
    have gen : w'.idGen = w.idGen := by
      have := hf.gen
      rcases h with ⟨-, rfl⟩ | ⟨t', ht', rfl⟩ <;> exact this
    have nxt : w'.nextTask = w.nextTask := by
      have := hf.next
      rcases h with ⟨-, rfl⟩ | ⟨t', ht', rfl⟩ <;> exact this
    have back : ∀ {j u}, w'.tasks.find j = some u → ∃ u', w.tasks.find j = some u' ∧ ∀ k, u.born = some k → u'.born = some k := by
      intro j u e
      rcases task_cases hf h e with ⟨rfl, e⟩ | ⟨-, e⟩
      · exact ⟨t, ht, hf.born u e⟩
      · exact ⟨u, e, fun _ h => h⟩
    exact {
      uniq := fun a b x y k e1 e2 m1 m2 => by
        obtain ⟨x', f1, g1⟩ := back e1
        obtain ⟨y', f2, g2⟩ := back e2
        exact hb.uniq a b x' y' k f1 f2 (g1 k m1) (g2 k m2)
      lt := fun a x k e m => by
        obtain ⟨x', f1, g1⟩ := back e
        rw [gen]; exact hb.lt a x' k f1 (g1 k m)
      told := fun id hid => by
        rw [told_append] at hid
        rcases List.mem_append.mp hid with hid | hid
        · obtain ⟨k, h1, h2, h3, h4⟩ := hb.told id hid
          refine ⟨k, h1, h2, by rw [gen]; exact h3, fun j u e m => ?_⟩
          obtain ⟨u', f1, g1⟩ := back e
          exact h4 j u' f1 (g1 k m)
        · rcases hf.told with ht0 | ⟨tx, k, rfl, ht1, hn⟩
          · rw [ht0] at hid; cases hid
          · rw [ht1] at hid
            have hlt := hb.lt i _ k ht rfl
            refine ⟨k, List.mem_singleton.mp hid, hlt.1, by rw [gen]; exact hlt.2, fun j u e m => ?_⟩
            rcases task_cases hf h e with ⟨rfl, e⟩ | ⟨hj, e⟩
            · rw [hn] at e; cases e
            · exact hj (hb.uniq j i u _ k e ht m rfl)
      nodup := by
        rw [told_append]
        rcases hf.told with ht0 | ⟨tx, k, rfl, ht1, hn⟩
        · rw [ht0, List.append_nil]; exact hb.nodup
        · rw [ht1]
          refine List.nodup_append.mpr ⟨hb.nodup, by simp, fun a ha b hb' hab => ?_⟩
          rw [List.mem_singleton.mp hb'] at hab
          obtain ⟨k', h1, h2, h3, h4⟩ := hb.told a ha
          have hlt := hb.lt i _ k ht rfl
          rw [gen] at hm
          rw [hab, idOf_eq (by omega), idOf_eq (by omega)] at h1
          exact h4 i _ ht (by rw [← h1]; rfl)
      next := fun j u e => by
        obtain ⟨u', f1, -⟩ := back e
        rw [nxt]; exact hb.next j u' f1
      pos := by rw [gen]; exact hb.pos }

theorem begin_births (dh : L.Dh) : Births (begin L dh) [] where
  uniq _ _ _ _ _ e := by cases e
  lt _ _ _ e := by cases e
  told _ h := by cases h
  nodup := List.nodup_nil
  next _ _ e := by cases e
  pos := le_rfl

theorem run_gen : ∀ (evs : List (Ev L)) {w w' : World L} {es : List (Eff L)}, run L w evs = .ok (w', es) →
    w'.idGen = w.idGen + (auths evs).length
  | [], w, w', es, h => by cases h; rfl
  | e :: evs, w, w', es, h => by
    unfold run at h
    obtain ⟨⟨w1, e1⟩, h1, h⟩ := Out.bind_eq_ok.mp h
    obtain ⟨⟨w2, e2⟩, h2, h⟩ := Out.bind_eq_ok.mp h
    cases h
    rw [run_gen evs h2, step_gen h1, show e :: evs = [e] ++ evs from rfl, auths_append, List.length_append]
    omega

theorem run_births : ∀ (evs : List (Ev L)) {w w' : World L} {effs es : List (Eff L)}, Births w effs → run L w evs = .ok (w', es) →
    w'.idGen ≤ 2 ^ 64 → Births w' (effs ++ es)
  | [], w, w', effs, es, hb, h, _ => by cases h; rw [List.append_nil]; exact hb
  | e :: evs, w, w', effs, es, hb, h, hm => by
    unfold run at h
    obtain ⟨⟨w1, e1⟩, h1, h⟩ := Out.bind_eq_ok.mp h
    obtain ⟨⟨w2, e2⟩, h2, h⟩ := Out.bind_eq_ok.mp h
    cases h
    have := run_births evs (step_births hb h1 (by have := run_gen evs h2; omega)) h2 hm
    rwa [List.append_assoc] at this

/-! ## Ends -/

/-- No thread has, and the map has not, the object `h`, and none will be made with that number. -/
structure Gone (w : World L) (h : Nat) : Prop where
  old : h < w.idGen
  map : ∀ id, w.clients.find id ≠ some h
  tasks : ∀ i t, w.tasks.find i = some t → t.holds ≠ some h ∧ t.makes ≠ some h

theorem Gone.spawn {w : World L} {h : Nat} (hg : Gone w h) {t : Task L} (h1 : t.holds ≠ some h) (h2 : t.makes ≠ some h) :
    Gone (Clients.spawn w t) h where
  old := hg.old
  map := hg.map
  tasks i u e := by
    rcases spawn_cases e with ⟨rfl, rfl⟩ | e
    · exact ⟨h1, h2⟩
    · exact hg.tasks i u e

theorem Task.makes_born {t : Task L} {h : Nat} (e : t.makes = some h) : t.born = some h := by cases t <;> first | exact e | cases e

theorem step_gone {w w' : World L} {h : Nat} (hg : Gone w h) {e : Ev L} {es : List (Eff L)} (hs : step L w e = .ok (w', es)) :
    Gone w' h ∧ ∀ k n p, Eff.sealed h k n p ∉ es := by
  have noSeal : ∀ k n p, (Eff.sealed h k n p : Eff L) ∉ ([] : List (Eff L)) := fun _ _ _ => by simp
  cases e with
  | newClient tx auth =>
    cases hs
    refine ⟨Gone.spawn (w := { w with idGen := w.idGen + 1 }) ⟨Nat.lt_succ_of_lt hg.old, hg.map, hg.tasks⟩ (fun e => by cases e) (fun e => ?_), noSeal⟩
    cases e; have := hg.old; omega
  | existing tx id data => cases hs; exact ⟨hg.spawn (fun e => by cases e) (fun e => by cases e), noSeal⟩
  | close tx id => cases hs; exact ⟨hg.spawn (fun e => by cases e) (fun e => by cases e), noSeal⟩
  | refresh => cases hs; exact ⟨hg.spawn (fun e => by cases e) (fun e => by cases e), noSeal⟩
  | rotate =>
    simp only [step] at hs
    split at hs
    · cases hs; exact ⟨hg, noSeal⟩
    · cases hs; exact ⟨hg.spawn (fun e => by cases e) (fun e => by cases e), noSeal⟩
  | complete i res =>
    simp only [step] at hs
    split at hs
    · cases hs; exact ⟨hg, noSeal⟩
    · cases hs
      exact ⟨Gone.spawn (w := { w with pending := w.pending.eraseIdx i }) ⟨hg.old, hg.map, hg.tasks⟩ (fun e => by cases e) (fun e => by cases e), noSeal⟩
  | run i rnd raft =>
    rcases run_cases hs with ⟨rfl, rfl⟩ | ⟨t, r, ht, hr, rfl, hc⟩
    · exact ⟨hg, noSeal⟩
    have hf := stepTask_frame hr
    refine ⟨⟨?_, fun id hid => ?_, fun j u e => ?_⟩, fun k n p hk => (hg.tasks i t ht).1 (hf.sealed_ h k n p hk)⟩
    · have gen := hf.gen
      have := hg.old
      rcases hc with ⟨-, rfl⟩ | ⟨t', ht', rfl⟩ <;> (show h < r.1.idGen; omega)
    · have hid : r.1.clients.find id = some h := by
        rcases hc with ⟨-, rfl⟩ | ⟨t', ht', rfl⟩ <;> exact hid
      rcases hf.clients with ⟨e, -⟩ | ⟨id', -, e, -⟩ | ⟨tx, h', hm, e, -⟩
      · rw [e] at hid; exact hg.map id hid
      · rw [e, OMap.find_erase] at hid
        split at hid
        · cases hid
        · exact hg.map id hid
      · rw [e, OMap.find_insert] at hid
        split at hid
        · cases hid; exact (hg.tasks i t ht).2 hm
        · exact hg.map id hid
    · rcases task_cases hf hc e with ⟨rfl, e⟩ | ⟨-, e⟩
      · refine ⟨fun hh => ?_, fun hm => ?_⟩
        · rcases hf.holds u e h hh with h1 | ⟨id, h1⟩
          · exact (hg.tasks _ t ht).1 h1
          · exact hg.map id h1
        · have hb := hf.born u e h (Task.makes_born hm)
          have : t.makes = some h := by
            cases t with
            | newReply tx h' =>
              simp only [stepTask] at hr
              split at hr
              · split at hr
                · cases hr
                · cases hr; cases e
              · cases hr
            | _ => exact hb
          exact (hg.tasks _ t ht).2 this
      · exact hg.tasks j u e

theorem run_gone {h : Nat} : ∀ (evs : List (Ev L)) {w w' : World L} {es : List (Eff L)}, Gone w h → run L w evs = .ok (w', es) →
    ∀ k n p, Eff.sealed h k n p ∉ es
  | [], w, w', es, hg, hr => by cases hr; simp
  | e :: evs, w, w', es, hg, hr => by
    unfold run at hr
    obtain ⟨⟨w1, e1⟩, h1, hr⟩ := Out.bind_eq_ok.mp hr
    obtain ⟨⟨w2, e2⟩, h2, hr⟩ := Out.bind_eq_ok.mp hr
    cases hr
    have hg1 := step_gone hg h1
    intro k n p hk
    rcases List.mem_append.mp hk with hk | hk
    · exact hg1.2 k n p hk
    · exact run_gone evs hg1.1 h2 k n p hk

/-! ## A host that keeps to the ids it was told -/

/-- The ids in use are ids told to the host, and those not yet told are in the map. -/
structure Kept (w : World L) (effs : List (Eff L)) : Prop where
  tasks : ∀ i t id, w.tasks.find i = some t → t.names = some id → id ∈ told effs
  pending : ∀ x ∈ w.pending, x.2 ∈ told effs
  fresh : ∀ i tx h, w.tasks.find i = some (.newReply tx h) → w.clients.find (idOf h) = some h

theorem Kept.spawn {w : World L} {effs : List (Eff L)} (hk : Kept w effs) {t : Task L} (h1 : ∀ id, t.names = some id → id ∈ told effs)
    (h2 : ∀ tx h, t ≠ .newReply tx h) : Kept (Clients.spawn w t) effs where
  tasks i u id e m := by
    rcases spawn_cases e with ⟨rfl, rfl⟩ | e
    · exact h1 id m
    · exact hk.tasks i u id e m
  pending := hk.pending
  fresh i tx h e := by
    rcases spawn_cases e with ⟨-, e⟩ | e
    · exact absurd e.symm (h2 tx h)
    · exact hk.fresh i tx h e

theorem alive_of_map {w : World L} {id h : Nat} (e : w.clients.find id = some h) : alive w h = true := by
  unfold alive
  rw [Bool.or_eq_true]
  exact .inl (List.any_eq_true.mpr ⟨(id, h), OMap.mem_list.mpr e, by simp⟩)

theorem encrypt_ok {au : L.Cs → Bytes} (hL : Sane L) {A : List Bytes} {h : Nat} {c : Client L} (hg : Good L au A h c) (k : Nat) (resp : L.Resp) :
    ∃ y, encryptResponse L k resp c = .ok y := by
  unfold encryptResponse
  split
  · rename_i t0 r0 e1 e2 e3
    split
    · exact ⟨_, rfl⟩
    rename_i p hp
    obtain ⟨n, o, hd, -, -⟩ := Props.Noise.C45_encrypt_no_ub (hL t0.key).1 (hL t0.key).2.2 (hL t0.key).2.1 withAd (hg.txn t0 e2) p
    rw [hd]
    cases o <;> exact ⟨_, rfl⟩
  · exact ⟨_, rfl⟩

/-- Where undefined behaviour can come from. -/
theorem stepTask_ok {au : L.Cs → Bytes} (hL : Sane L) {Q : Nat → Nat → Prop} {A : List Bytes} {w : World L} {effs : List (Eff L)}
    (hi : Inv L au Q A w effs) {i : Nat} {t : Task L} (ht : w.tasks.find i = some t) (rnd : Bytes) (raft : Bool) :
    (∃ r, stepTask L w rnd raft t = .ok r) ∨ ∃ tx h, t = .newReply tx h ∧ alive w h = false := by
  have hok := hi.tasks i t ht
  cases t with
  | newArgs tx h auth => exact .inl ⟨_, rfl⟩
  | newInit tx h auth dh att =>
    simp only [stepTask]
    cases init L auth dh att <;> exact .inl ⟨_, rfl⟩
  | newReply tx h =>
    obtain ⟨c, hc⟩ := hok
    simp only [stepTask, hc]
    cases ha : alive w h
    · exact .inr ⟨tx, h, rfl, ha⟩
    · exact .inl ⟨_, rfl⟩
  | existing tx id data =>
    simp only [stepTask]
    cases w.clients.find id <;> exact .inl ⟨_, rfl⟩
  | handshaking tx id h data =>
    obtain ⟨-, -, c, hc⟩ := hok
    simp only [stepTask, hc]
    exact .inl ⟨_, rfl⟩
  | finish tx id h data =>
    obtain ⟨-, -, c, hc⟩ := hok
    simp only [stepTask, hc]
    rcases finishHandshake L data rnd c with ⟨c', e | o⟩ <;> exact .inl ⟨_, rfl⟩
  | decrypt tx id h data =>
    obtain ⟨-, -, c, hc⟩ := hok
    simp only [stepTask, hc]
    have : ∃ y, decryptRequest L data c = .ok y := by
      unfold decryptRequest
      split
      · rename_i r0 e1 e2 e3
        obtain ⟨n, o, hd, -, -⟩ := Props.Noise.C45_decrypt_no_ub (hL r0.key).1 (mx := Noise.maxMessage) (by decide) withAd ((hi.objs h c hc).rxn r0 e3) data
        rw [hd]
        cases o with
        | none => exact ⟨_, rfl⟩
        | some pt =>
          simp only [Out.bind_ok]
          cases L.parseReq pt <;> exact ⟨_, rfl⟩
      · exact ⟨_, rfl⟩
    obtain ⟨⟨c', x⟩, hy⟩ := this
    rw [hy]
    cases x <;> exact .inl ⟨_, rfl⟩
  | respond tx id h req =>
    obtain ⟨-, -, c, hc⟩ := hok
    simp only [stepTask, hc]
    rcases (L.respondReq c.cs req).2 with _ | _ | _ <;> exact .inl ⟨_, rfl⟩
  | encrypt tx id h resp =>
    obtain ⟨-, -, c, hc⟩ := hok
    simp only [stepTask, hc]
    have := encrypt_ok hL (hi.objs h c hc) h resp
    obtain ⟨⟨c', es, x⟩, hy⟩ := this
    rw [hy]
    cases x <;> exact .inl ⟨_, rfl⟩
  | encryptEff tx id h resp =>
    obtain ⟨-, -, c, hc⟩ := hok
    simp only [stepTask, hc]
    have := encrypt_ok hL (hi.objs h c hc) h resp
    obtain ⟨⟨c', es, x⟩, hy⟩ := this
    rw [hy]
    cases x <;> exact .inl ⟨_, rfl⟩
  | log tx id h req =>
    obtain ⟨-, -, c, hc⟩ := hok
    simp only [stepTask, hc]
    cases L.logFrom c.cs req rnd with
    | none => exact .inl ⟨_, rfl⟩
    | some log =>
      simp only
      split
      · exact .inl ⟨_, rfl⟩
      · cases L.serLog log <;> exact .inl ⟨_, rfl⟩
  | write tx id h data =>
    simp only [stepTask]
    cases raft <;> exact .inl ⟨_, rfl⟩
  | drop tx id e => exact .inl ⟨_, rfl⟩
  | close tx id => exact .inl ⟨_, rfl⟩
  | done tx id res =>
    simp only [stepTask]
    rcases res with e | _ | e
    · exact .inl ⟨_, rfl⟩
    · exact .inl ⟨_, rfl⟩
    · simp only
      cases w.clients.find id <;> exact .inl ⟨_, rfl⟩
  | effect tx id h e =>
    obtain ⟨-, -, c, hc⟩ := hok
    simp only [stepTask, hc]
    rcases (L.respondEff c.cs e).2 with _ | _ <;> exact .inl ⟨_, rfl⟩
  | attest dh config limits =>
    simp only [stepTask]
    cases L.pub dh with
    | none => exact .inl ⟨_, rfl⟩
    | some pub =>
      simp only
      cases L.evidence ⟨pub, config, limits⟩ rnd <;> exact .inl ⟨_, rfl⟩
  | store dh att => exact .inl ⟨_, rfl⟩

/-- What a step keeps of a host that keeps to the ids it was told. -/
theorem step_kept {w w' : World L} {effs es : List (Eff L)} (hb : Births w effs) (hk : Kept w effs) {e : Ev L}
    (hn : ∀ id, e.names = some id → id ∈ told effs) (hs : step L w e = .ok (w', es)) (hm : w'.idGen ≤ 2 ^ 64) : Kept w' (effs ++ es) := by
  cases e with
  | newClient tx auth =>
    cases hs
    rw [List.append_nil]
    exact Kept.spawn (w := { w with idGen := w.idGen + 1 }) ⟨hk.tasks, hk.pending, hk.fresh⟩ (fun _ e => by cases e) (fun _ _ e => by cases e)
  | existing tx id data => cases hs; rw [List.append_nil]; exact hk.spawn (fun id e => hn id e) (fun _ _ e => by cases e)
  | close tx id => cases hs; rw [List.append_nil]; exact hk.spawn (fun id e => hn id e) (fun _ _ e => by cases e)
  | refresh => cases hs; rw [List.append_nil]; exact hk.spawn (fun _ e => by cases e) (fun _ _ e => by cases e)
  | rotate =>
    simp only [step] at hs
    split at hs
    · cases hs; rw [List.append_nil]; exact hk
    · cases hs; rw [List.append_nil]; exact hk.spawn (fun _ e => by cases e) (fun _ _ e => by cases e)
  | complete i res =>
    simp only [step] at hs
    split at hs
    · cases hs; rw [List.append_nil]; exact hk
    · rename_i tx id hp
      cases hs; rw [List.append_nil]
      refine Kept.spawn (w := { w with pending := w.pending.eraseIdx i })
        ⟨hk.tasks, fun x hx => hk.pending x (List.mem_of_mem_eraseIdx hx), hk.fresh⟩ (fun id' e => ?_) (fun _ _ e => by cases e)
      cases e
      exact hk.pending (tx, id) (List.mem_of_getElem? hp)
  | run i rnd raft =>
    rcases run_cases hs with ⟨rfl, rfl⟩ | ⟨t, r, ht, hr, rfl, hc⟩
    · rw [List.append_nil]; exact hk
    have hf := stepTask_frame hr
    have gen : w'.idGen = w.idGen := by
      have := hf.gen
      rcases hc with ⟨-, rfl⟩ | ⟨t', ht', rfl⟩ <;> exact this
    have cl : w'.clients = r.1.clients := by rcases hc with ⟨-, rfl⟩ | ⟨t', ht', rfl⟩ <;> rfl
    have pe : w'.pending = r.1.pending := by rcases hc with ⟨-, rfl⟩ | ⟨t', ht', rfl⟩ <;> rfl
    have left : ∀ {id}, id ∈ told effs → id ∈ told (effs ++ r.2.2) := fun h => by rw [told_append]; exact List.mem_append_left _ h
    refine ⟨fun j u id e m => ?_, fun x hx => ?_, fun j tx h e => ?_⟩
    · rcases task_cases hf hc e with ⟨rfl, e⟩ | ⟨-, e⟩
      · exact left (hk.tasks _ t id ht (hf.names u e id m))
      · exact left (hk.tasks j u id e m)
    · rw [pe] at hx
      rcases hf.pending x hx with h | h
      · exact left (hk.pending x h)
      · exact left (hk.tasks i t x.2 ht h)
    · rw [cl]
      rcases task_cases hf hc e with ⟨rfl, e1⟩ | ⟨hj, e1⟩
      · rcases hf.clients with ⟨-, hno⟩ | ⟨id', -, -, hno⟩ | ⟨tx', h', hm', he, hno⟩
        · exact absurd e1 (hno tx h)
        · rw [hno] at e1; cases e1
        · rw [hno] at e1; cases e1; rw [he]; simp
      · have hold := hk.fresh j tx h e1
        have hlt := (hb.lt j _ h e1 rfl).2
        rcases hf.clients with ⟨he, -⟩ | ⟨id', hid, he, -⟩ | ⟨tx', h', hm', he, -⟩
        · rw [he]; exact hold
        · obtain ⟨k, k1, k2, k3, k4⟩ := hb.told id' (hk.tasks i t id' ht hid)
          have hne : idOf h ≠ id' := by
            intro e'
            rw [k1, idOf_eq (by omega), idOf_eq (by omega)] at e'
            subst e'
            exact k4 j _ e1 rfl
          rw [he, OMap.find_erase, if_neg (by first | exact hne | exact Ne.symm hne)]; exact hold
        · have hne : idOf h ≠ idOf h' := by
            intro e'
            have := (hb.lt i t h' ht (Task.makes_born hm')).2
            rw [idOf_eq (by omega), idOf_eq (by omega)] at e'
            subst e'
            exact hj (hb.uniq j i _ t h e1 ht rfl (Task.makes_born hm'))
          rw [he, OMap.find_insert_ne _ _ (by first | exact hne | exact Ne.symm hne)]; exact hold

theorem begin_kept (dh : L.Dh) : Kept (begin L dh) [] where
  tasks _ _ _ e := by cases e
  pending _ h := by cases h
  fresh _ _ _ e := by cases e

theorem step_total {au : L.Cs → Bytes} (hL : Sane L) {Q : Nat → Nat → Prop} {A : List Bytes} {w : World L} {effs effs' : List (Eff L)}
    (hi : Inv L au Q A w effs) (hk : Kept w effs') (e : Ev L) : ∃ y, step L w e = .ok y := by
  cases e with
  | newClient => exact ⟨_, rfl⟩
  | existing => exact ⟨_, rfl⟩
  | close => exact ⟨_, rfl⟩
  | refresh => exact ⟨_, rfl⟩
  | rotate rnd config limits =>
    simp only [step]
    cases L.newDh rnd <;> exact ⟨_, rfl⟩
  | complete i res =>
    simp only [step]
    rcases w.pending[i]? with _ | ⟨tx, id⟩ <;> exact ⟨_, rfl⟩
  | run i rnd raft =>
    simp only [step]
    cases ht : w.tasks.find i with
    | none => exact ⟨_, rfl⟩
    | some t =>
      simp only
      rcases stepTask_ok hL hi ht rnd raft with ⟨⟨w1, nx, es⟩, hr⟩ | ⟨tx, h, rfl, ha⟩
      · rw [hr]
        cases nx <;> exact ⟨_, rfl⟩
      · rw [alive_of_map (hk.fresh i tx h ht)] at ha; cases ha

end Svr.Clients
