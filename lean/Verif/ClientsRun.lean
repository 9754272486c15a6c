import Verif.ClientsFacts

/-! # Client sessions: what every step keeps -/

namespace Svr.Clients

variable {L : Lib} {au : L.Cs → Bytes} {ky : L.Log → Bytes} {Q Q' : Nat → Nat → Prop} {A A' : List Bytes} {w w' : World L}
  {effs : List (Eff L)}

theorem init_good (ho : Owned L au ky) {auth : Bytes} {dh : L.Dh} {att : Option Bytes} {c : Client L} {h : Nat}
    (hc : init L auth dh att = .ok c) (h1 : 1 ≤ h) (ha : A[h - 1]? = some auth)
    (hv : ∀ p a, L.pub dh = some p → att = some a → Vouches L p a) : Good L au A h c := by
  unfold init at hc
  split at hc
  · cases hc
  rename_i hs hst
  split at hc
  · cases hc
  rename_i pub hp
  cases hc
  exact { pos := h1, auth := by rw [ho.new]; exact ha
          from_ := ⟨dh, hp, fun a e => hv pub a hp e, fun hs' e => by cases e; exact ⟨.start hst, rfl⟩, fun t e => by cases e⟩
          txn := fun t e => by cases e
          rxn := fun t e => by cases e }

theorem finish_good (ho : Owned L au ky) {data rnd : Bytes} {c c' : Client L} {h : Nat} {r : Except Err Bytes}
    (hg : Good L au A h c) (hc : finishHandshake L data rnd c = (c', r)) : Good L au A h c' ∧ Later c c' ∧
      ∀ out, r = .ok out → ∃ t x dh, c'.tx = some t ∧ c'.rx = some x ∧ L.pub dh = some c'.start.1 ∧ KeysFrom L dh t.key x.key out := by
  obtain ⟨dh, f1, f2, f3, f4⟩ := hg.from_
  unfold finishHandshake at hc
  split at hc
  · rename_i h0 e1 e2 e3
    obtain ⟨k1, -⟩ := f3 h0 e1
    have keep : ∀ h', HsFrom L dh h' → Good L au A h { c with hs := some h' } ∧ Later c { c with hs := some h' } := by
      intro h' hh
      refine ⟨{ pos := hg.pos, auth := hg.auth, txn := hg.txn, rxn := hg.rxn, from_ := ⟨dh, f1, f2, fun hs' e => ?_, f4⟩ },
        rfl, fun t e => ⟨t, e, rfl, le_rfl⟩, fun t e => ⟨t, e, rfl⟩⟩
      cases e; exact ⟨hh, e2⟩
    split at hc
    · cases hc
      exact ⟨hg, .refl c, fun _ e => by cases e⟩
    split at hc
    · rename_i h1 er
      cases hc
      have := keep h1 (by have := HsFrom.read data k1; rw [er] at this; exact this)
      exact ⟨this.1, this.2, fun _ e => by cases e⟩
    rename_i h1 er
    have k2 : HsFrom L dh h1 := by have := HsFrom.read data k1; rw [er] at this; exact this
    split at hc
    · cases hc
      exact ⟨(keep h1 k2).1, (keep h1 k2).2, fun _ e => by cases e⟩
    split at hc
    · rename_i h2 ew
      cases hc
      have := keep h2 (by have := HsFrom.write rnd k2; rw [ew] at this; exact this)
      exact ⟨this.1, this.2, fun _ e => by cases e⟩
    rename_i h2 out ew
    have k3 : HsFrom L dh h2 := by have := HsFrom.write rnd k2; rw [ew] at this; exact this
    split at hc
    · cases hc
      exact ⟨(keep h2 k3).1, (keep h2 k3).2, fun _ e => by cases e⟩
    split at hc
    · rename_i h3 es
      cases hc
      have := keep h3 (by have := HsFrom.split k3; rw [es] at this; exact this)
      exact ⟨this.1, this.2, fun _ e => by cases e⟩
    rename_i h3 tx rx es
    have k4 : HsFrom L dh h3 := by have := HsFrom.split k3; rw [es] at this; exact this
    split at hc
    · cases hc
      exact ⟨(keep h3 k4).1, (keep h3 k4).2, fun _ e => by cases e⟩
    · cases hc
      have kf : KeysFrom L dh tx rx out := ⟨h1, rnd, k2, by rw [ew], by rw [ew]; simp only; rw [es]⟩
      refine ⟨{ pos := hg.pos, auth := by rw [ho.setHash]; exact hg.auth, from_ := ⟨dh, f1, f2, fun hs' e => (by cases e), fun t e => ?_⟩,
                txn := fun t e => ?_, rxn := fun t e => ?_ }, ⟨rfl, fun t e => ?_, fun t e => ?_⟩, fun out' e => ?_⟩
      · cases e; exact ⟨_, out, rfl, kf⟩
      · cases e; simp
      · cases e; simp
      · rw [e2] at e; cases e
      · rw [e3] at e; cases e
      · cases e; exact ⟨_, _, dh, rfl, rfl, f1, kf⟩
  · cases hc
    exact ⟨hg, .refl c, fun _ e => by cases e⟩

theorem decrypt_good (hL : Sane L) {data : Bytes} {c c' : Client L} {h : Nat} {r : Except Err L.Req}
    (hg : Good L au A h c) (hc : decryptRequest L data c = .ok (c', r)) : Good L au A h c' ∧ Later c c' := by
  obtain ⟨dh, f1, f2, f3, f4⟩ := hg.from_
  unfold decryptRequest at hc
  split at hc
  · rename_i t0 r0 e1 e2 e3
    obtain ⟨n, o, hd, -, hn⟩ := Props.Noise.C45_decrypt_no_ub (hL r0.key).1 (mx := Noise.maxMessage) (by decide) withAd (hg.rxn r0 e3) data
    rw [hd] at hc
    have keep : Good L au A h { c with rx := some ⟨r0.key, n⟩ } ∧ Later c { c with rx := some ⟨r0.key, n⟩ } := by
      refine ⟨{ pos := hg.pos, auth := hg.auth, txn := hg.txn, rxn := fun t e => (by cases e; exact hn), from_ := ⟨dh, f1, f2, f3, fun t e => ?_⟩ },
        rfl, fun t e => ⟨t, e, rfl, le_rfl⟩, fun t e => ?_⟩
      · obtain ⟨r', out, g1, g2⟩ := f4 t e
        rw [e3] at g1; cases g1
        exact ⟨_, out, rfl, g2⟩
      · rw [e3] at e; cases e; exact ⟨_, rfl, rfl⟩
    cases o with
    | none => cases hc; exact keep
    | some pt =>
      simp only [Out.bind_ok] at hc
      split at hc <;> (cases hc; exact keep)
  · cases hc; exact ⟨hg, .refl c⟩

theorem encrypt_good (hL : Sane L) {resp : L.Resp} {c c' : Client L} {h k : Nat} {es : List (Eff L)} {r : Except Err Bytes}
    (hg : Good L au A h c) (hc : encryptResponse L k resp c = .ok (c', es, r)) : Good L au A h c' ∧ Later c c' ∧
      ((es = [] ∧ ∃ e, r = .error e) ∨ ∃ t p n o, c.tx = some t ∧ c'.tx = some ⟨t.key, n⟩ ∧ es = [.sealed k t.key t.nonce p] ∧
        Noise.encrypt (L.aead t.key) Noise.maxMessage withAd t.nonce p = .ok (n, o) ∧ ∀ ct, r = .ok ct → o = some ct) := by
  obtain ⟨dh, f1, f2, f3, f4⟩ := hg.from_
  unfold encryptResponse at hc
  split at hc
  · rename_i t0 r0 e1 e2 e3
    split at hc
    · cases hc; exact ⟨hg, .refl c, .inl ⟨rfl, _, rfl⟩⟩
    rename_i p hp
    obtain ⟨n, o, hd, hle, hn⟩ := Props.Noise.C45_encrypt_no_ub (hL t0.key).1 (hL t0.key).2.2 (hL t0.key).2.1 withAd (hg.txn t0 e2) p
    rw [hd] at hc
    have keep : Good L au A h { c with tx := some ⟨t0.key, n⟩ } ∧ Later c { c with tx := some ⟨t0.key, n⟩ } := by
      refine ⟨{ pos := hg.pos, auth := hg.auth, rxn := hg.rxn, txn := fun t e => (by cases e; exact hn), from_ := ⟨dh, f1, f2, fun hs e => ?_, fun t e => ?_⟩ },
        rfl, fun t e => ?_, fun t e => ⟨t, e, rfl⟩⟩
      · rw [e1] at e; cases e
      · cases e
        exact f4 t0 e2
      · rw [e2] at e; cases e; exact ⟨_, rfl, rfl, hle⟩
    cases o with
    | none => cases hc; exact ⟨keep.1, keep.2, .inr ⟨t0, p, n, none, e2, rfl, rfl, hd, fun _ e => by cases e⟩⟩
    | some ct => cases hc; exact ⟨keep.1, keep.2, .inr ⟨t0, p, n, some ct, e2, rfl, rfl, hd, fun _ e => by cases e; rfl⟩⟩
  · cases hc; exact ⟨hg, .refl c, .inl ⟨rfl, _, rfl⟩⟩

theorem cs_good {c : Client L} {h : Nat} {cs : L.Cs} (hg : Good L au A h c) (he : au cs = au c.cs) :
    Good L au A h { c with cs := cs } ∧ Later c { c with cs := cs } :=
  ⟨{ pos := hg.pos, auth := by rw [he]; exact hg.auth, from_ := hg.from_, txn := hg.txn, rxn := hg.rxn },
    rfl, fun t e => ⟨t, e, rfl, le_rfl⟩, fun t e => ⟨t, e, rfl⟩⟩

/-- What a step leaves, before the thread is moved on. -/
def After (L : Lib) (au : L.Cs → Bytes) (Q : Nat → Nat → Prop) (A : List Bytes) (effs : List (Eff L)) (t : Task L) (r : Ret L) (w : World L) : Prop :=
  Inv L au Q A r.1 (effs ++ r.2.2) ∧ r.1.tasks = w.tasks ∧ (∀ t', r.2.1 = some t' → TaskOk L au Q A r.1 t' ∧ ∀ h, t'.makes = some h → t.makes = some h)

theorem same_after (hi : Inv L au Q A w effs) {t : Task L} {o : Option (Task L)}
    (h : ∀ t', o = some t' → TaskOk L au Q A w t' ∧ ∀ h, t'.makes = some h → t.makes = some h) : After L au Q A effs t (w, o, []) w :=
  ⟨by rw [List.append_nil]; exact hi, rfl, h⟩

theorem drop_ok {w : World L} {tx id : Nat} {e : Err} {t : Task L} : ∀ t', some (Task.drop (L := L) tx id e) = some t' →
    TaskOk L au Q A w t' ∧ ∀ h, t'.makes = some h → t.makes = some h := by
  intro t' e; cases e; exact ⟨trivial, fun _ e => by cases e⟩

theorem none_ok {w : World L} {t : Task L} : ∀ t', (none : Option (Task L)) = some t' →
    TaskOk L au Q A w t' ∧ ∀ h, t'.makes = some h → t.makes = some h := by
  intro t' e; cases e

/-- The two places that encrypt. -/
theorem sealed_after (hL : Sane L) (hi : Inv L au Q A w effs) {tx id h : Nat} {resp : L.Resp} {c : Client L} {t : Task L} {r : Ret L}
    (hq : Q tx id) (hid : id = idOf h) (hc : w.objs.find h = some c)
    (hr : (do match ← encryptResponse L h resp c with
      | (c, es, .error e) => pure ({ w with objs := w.objs.insert h c }, some (.drop tx id e), es)
      | (c, es, .ok ct) => pure ({ w with objs := w.objs.insert h c }, none, es ++ [.reply tx (.data ct)]) : Out (Ret L)) = .ok r) :
    After L au Q A effs t r w := by
  obtain ⟨⟨c', es, x⟩, he, hr⟩ := Out.bind_eq_ok.mp hr
  obtain ⟨g1, g2, g3⟩ := encrypt_good hL (hi.objs h c hc) he
  have hj := hi.setObj hc g1 g2
  have hf : ({ w with objs := w.objs.insert h c' } : World L).objs.find h = some c' := by simp
  have es_ok : Inv L au Q A { w with objs := w.objs.insert h c' } (effs ++ es) := by
    rcases g3 with ⟨rfl, -⟩ | ⟨t0, p, n, o, k1, k2, rfl, k4, k5⟩
    · rw [List.append_nil]; exact hj
    · refine hj.emit (fun e he => ?_) (List.pairwise_singleton _ _) (fun a ha b hb => ?_)
      · rw [List.mem_singleton.mp he]
        exact ⟨c', _, n, o, hf, k2, rfl, k4, le_rfl⟩
      · rw [List.mem_singleton.mp hb]
        intro h' k n' p' k' n'' p'' e1 e2
        cases e2
        have := hi.seen a ha
        rw [e1] at this
        obtain ⟨c2, t2, m, o2, l1, l2, l3, l4, l5⟩ := this
        rw [hc] at l1; cases l1
        rw [k1] at l2; cases l2
        exact ⟨l3, m, o2, l4, l5⟩
  cases x with
  | error e => cases hr; exact ⟨es_ok, rfl, drop_ok⟩
  | ok ct =>
    cases hr
    refine ⟨?_, rfl, none_ok⟩
    show Inv L au Q A _ (effs ++ (es ++ [_]))
    rw [← List.append_assoc]
    refine es_ok.emit1 ?_ (fun _ _ _ _ e => by cases e)
    rcases g3 with ⟨-, e, g⟩ | ⟨t0, p, n, o, k1, k2, rfl, k4, k5⟩
    · cases g
    · rw [k5 ct rfl] at k4
      exact ⟨id, h, t0.key, t0.nonce, p, n, hq, hid, by simp, k4⟩

theorem stepTask_after (hL : Sane L) (ho : Owned L au ky) (hi : Inv L au Q A w effs) {i : Nat} {t : Task L} (ht : w.tasks.find i = some t)
    {rnd : Bytes} {raft : Bool} {r : Ret L} (hr : stepTask L w rnd raft t = .ok r) : After L au Q A effs t r w ∨
      (∃ tx h auth dh att, t = .newInit tx h auth dh att ∧ ∃ c, init L auth dh att = .ok c ∧
        r = ({ w with objs := w.objs.insert h c, clients := w.clients.insert (idOf h) h }, some (.newReply tx h), [])) := by
  have hok := hi.tasks i t ht
  cases t with
  | newInit tx h auth dh att =>
    simp only [stepTask] at hr
    split at hr
    · cases hr
      exact .inl ⟨hi.emit1 trivial (fun _ _ _ _ e => by cases e), rfl, none_ok⟩
    · rename_i c hc
      cases hr
      exact .inr ⟨_, _, _, _, _, rfl, c, hc, rfl⟩
  | newArgs tx h auth =>
    cases hr
    refine .inl (same_after hi fun t' e => ?_)
    cases e
    exact ⟨⟨hok.1, hok.2.1, hok.2.2, hi.att⟩, fun _ e => e⟩
  | newReply tx h =>
    simp only [stepTask] at hr
    split at hr
    · split at hr
      · cases hr
      · rename_i c hc
        cases hr
        exact .inl ⟨hi.emit1 ⟨h, c, rfl, hc, rfl⟩ (fun _ _ _ _ e => by cases e), rfl, none_ok⟩
    · cases hr
  | existing tx id data =>
    simp only [stepTask] at hr
    split at hr
    · cases hr; exact .inl (same_after hi drop_ok)
    · rename_i h hc
      cases hr
      refine .inl (same_after hi fun t' e => ?_)
      cases e
      exact ⟨⟨hok, hi.clients id h hc⟩, fun _ e => by cases e⟩
  | handshaking tx id h data =>
    simp only [stepTask] at hr
    split at hr
    · cases hr
    · cases hr
      refine .inl (same_after hi fun t' e => ?_)
      cases e
      split
      · exact ⟨hok, fun _ e => by cases e⟩
      · exact ⟨hok, fun _ e => by cases e⟩
  | finish tx id h data =>
    simp only [stepTask] at hr
    split at hr
    · cases hr
    · rename_i c hc
      split at hr
      · rename_i c' e hf
        cases hr
        obtain ⟨g1, g2, -⟩ := finish_good ho (hi.objs h c hc) hf
        exact .inl ⟨by rw [List.append_nil]; exact hi.setObj hc g1 g2, rfl, drop_ok⟩
      · rename_i c' out hf
        cases hr
        obtain ⟨g1, g2, g3⟩ := finish_good ho (hi.objs h c hc) hf
        obtain ⟨t, x, dh, k1, k2, k3, k4⟩ := g3 out rfl
        exact .inl ⟨(hi.setObj hc g1 g2).emit1 ⟨id, h, c', t, x, dh, hok.1, hok.2.1, by simp, k1, k2, k3, k4⟩ (fun _ _ _ _ e => by cases e), rfl, none_ok⟩
  | decrypt tx id h data =>
    simp only [stepTask] at hr
    split at hr
    · cases hr
    · rename_i c hc
      obtain ⟨⟨c', x⟩, hd, hr⟩ := Out.bind_eq_ok.mp hr
      obtain ⟨g1, g2⟩ := decrypt_good hL (hi.objs h c hc) hd
      have hj := hi.setObj hc g1 g2
      cases x with
      | error e => cases hr; exact .inl ⟨by rw [List.append_nil]; exact hj, rfl, drop_ok⟩
      | ok req =>
        cases hr
        refine .inl ⟨by rw [List.append_nil]; exact hj, rfl, fun t' e => ?_⟩
        cases e
        exact ⟨⟨hok.1, hok.2.1, c', by simp⟩, fun _ e => by cases e⟩
  | respond tx id h req =>
    simp only [stepTask] at hr
    split at hr
    · cases hr
    · rename_i c hc
      obtain ⟨g1, g2⟩ := cs_good (hi.objs h c hc) (ho.respondReq c.cs req)
      have hj := hi.setObj hc g1 g2
      split at hr
      · cases hr; exact .inl ⟨by rw [List.append_nil]; exact hj, rfl, drop_ok⟩
      · cases hr
        refine .inl ⟨by rw [List.append_nil]; exact hj, rfl, fun t' e => ?_⟩
        cases e
        exact ⟨⟨hok.1, hok.2.1, _, OMap.find_insert_self ..⟩, fun _ e => by cases e⟩
      · cases hr
        refine .inl ⟨by rw [List.append_nil]; exact hj, rfl, fun t' e => ?_⟩
        cases e
        exact ⟨⟨hok.1, hok.2.1, _, OMap.find_insert_self ..⟩, fun _ e => by cases e⟩
  | encrypt tx id h resp =>
    simp only [stepTask] at hr
    split at hr
    · cases hr
    · rename_i c hc
      exact .inl (sealed_after hL hi hok.1 hok.2.1 hc hr)
  | encryptEff tx id h resp =>
    simp only [stepTask] at hr
    split at hr
    · cases hr
    · rename_i c hc
      exact .inl (sealed_after hL hi hok.1 hok.2.1 hc hr)
  | log tx id h req =>
    simp only [stepTask] at hr
    split at hr
    · cases hr
    · rename_i c hc
      split at hr
      · cases hr; exact .inl (same_after hi drop_ok)
      rename_i log hl
      split at hr
      · cases hr; exact .inl (same_after hi drop_ok)
      rename_i hv
      split at hr
      · cases hr; exact .inl (same_after hi drop_ok)
      rename_i data hd
      cases hr
      refine .inl (same_after hi fun t' e => ?_)
      cases e
      exact ⟨⟨hok.1, hok.2.1, hok.2.2, c.cs, req, rnd, log, (hi.objs h c hc).auth, hl, by simpa using hv, hd⟩, fun _ e => by cases e⟩
  | write tx id h data =>
    simp only [stepTask] at hr
    split at hr
    · cases hr
      refine .inl ⟨Inv.emit1 (Inv.grow (w' := { w with pending := w.pending ++ [(tx, id)] }) hi (fun _ _ h => h) (List.prefix_refl _) hi.gen rfl rfl rfl rfl ?_ rfl rfl)
        ⟨h, hok.1, hok.2.1, hok.2.2.2⟩ (fun _ _ _ _ e => by cases e), rfl, none_ok⟩
      intro x hx
      rcases List.mem_append.mp hx with hx | hx
      · exact .inl hx
      · rw [List.mem_singleton.mp hx]; exact .inr hok.1
    · cases hr; exact .inl (same_after hi drop_ok)
  | drop tx id e =>
    cases hr
    exact .inl ⟨(hi.erase id).emit1 trivial (fun _ _ _ _ e => by cases e), rfl, none_ok⟩
  | close tx id =>
    cases hr
    exact .inl ⟨(hi.erase id).emit1 trivial (fun _ _ _ _ e => by cases e), rfl, none_ok⟩
  | done tx id res =>
    simp only [stepTask] at hr
    split at hr
    · cases hr; exact .inl (same_after hi drop_ok)
    · cases hr; exact .inl (same_after hi drop_ok)
    · split at hr
      · cases hr; exact .inl (same_after hi drop_ok)
      · rename_i e h hc
        cases hr
        refine .inl (same_after hi fun t' e => ?_)
        cases e
        exact ⟨⟨hok, hi.clients id h hc⟩, fun _ e => by cases e⟩
  | effect tx id h e =>
    simp only [stepTask] at hr
    split at hr
    · cases hr
    · rename_i c hc
      obtain ⟨g1, g2⟩ := cs_good (hi.objs h c hc) (ho.respondEff c.cs e)
      have hj := hi.setObj hc g1 g2
      split at hr
      · cases hr; exact .inl ⟨by rw [List.append_nil]; exact hj, rfl, drop_ok⟩
      · cases hr
        refine .inl ⟨by rw [List.append_nil]; exact hj, rfl, fun t' e => ?_⟩
        cases e
        exact ⟨⟨hok.1, hok.2.1, _, OMap.find_insert_self ..⟩, fun _ e => by cases e⟩
  | attest dh config limits =>
    simp only [stepTask] at hr
    split at hr
    · cases hr; exact .inl (same_after hi none_ok)
    rename_i pub hp
    split at hr
    · cases hr; exact .inl (same_after hi none_ok)
    rename_i att ha
    cases hr
    refine .inl (same_after hi fun t' e => ?_)
    cases e
    exact ⟨fun p e => (by rw [hp] at e; cases e; exact ⟨_, _, _, ha⟩), fun _ e => by cases e⟩
  | store dh att =>
    cases hr
    refine .inl ⟨?_, rfl, none_ok⟩
    rw [List.append_nil]
    exact { hi with
      att := fun p a e1 e2 => by cases e2; exact hok p e1
      tasks := fun i t e => (hi.tasks i t e).mono (fun _ _ h => h) (List.prefix_refl _) (fun h c e => ⟨c, e⟩) (fun _ _ e => e)
      seen := fun e h => (hi.seen e h).mono (fun _ _ h => h) (List.prefix_refl _) (fun h c e => ⟨c, e, .refl c⟩) (fun _ h => h) }

/-- A new object. -/
theorem made_inv (ho : Owned L au ky) (hi : Inv L au Q A w effs) {i tx h : Nat} {auth : Bytes} {dh : L.Dh} {att : Option Bytes}
    (ht : w.tasks.find i = some (.newInit tx h auth dh att)) {c : Client L} (hc : init L auth dh att = .ok c) :
    Inv L au Q A { w with objs := w.objs.insert h c, clients := w.clients.insert (idOf h) h, tasks := w.tasks.insert i (.newReply tx h) } effs := by
  obtain ⟨k1, k2, k3, k4⟩ := hi.tasks i _ ht
  have some_ : ∀ k d, w.objs.find k = some d → ∃ d', (w.objs.insert h c).find k = some d' ∧ Later d d' := by
    intro k d e
    have hk : k ≠ h := by intro e'; subst e'; rw [k3] at e; cases e
    exact ⟨d, by rw [OMap.find_insert_ne _ _ (by first | exact hk | exact Ne.symm hk)]; exact e, .refl d⟩
  have some' : ∀ k d, w.objs.find k = some d → ∃ d', (w.objs.insert h c).find k = some d' :=
    fun k d e => (some_ k d e).imp fun _ h => h.1
  have cases_ : ∀ j u, (w.tasks.insert i (.newReply tx h)).find j = some u → (j = i ∧ u = .newReply tx h) ∨ (j ≠ i ∧ w.tasks.find j = some u) := by
    intro j u e
    by_cases hj : j = i
    · subst hj; rw [OMap.find_insert_self] at e; cases e; exact .inl ⟨rfl, rfl⟩
    · rw [OMap.find_insert_ne _ _ (by first | exact hj | exact Ne.symm hj)] at e; exact .inr ⟨hj, e⟩
  exact
  { hi with
    objs := fun k d e => by
      by_cases hk : k = h
      · subst hk; rw [OMap.find_insert_self] at e; cases e; exact init_good ho hc k1 k2 k4
      · rw [OMap.find_insert_ne _ _ (by first | exact hk | exact Ne.symm hk)] at e; exact hi.objs k d e
    clients := fun id k e => by
      by_cases hk : id = idOf h
      · subst hk; rw [OMap.find_insert_self] at e; cases e; exact ⟨rfl, c, by simp⟩
      · rw [OMap.find_insert_ne _ _ (by first | exact hk | exact Ne.symm hk)] at e
        exact ⟨(hi.clients id k e).1, (hi.clients id k e).2.elim fun d hd => some' k d hd⟩
    tasks := fun j u e => by
      rcases cases_ j u e with ⟨rfl, rfl⟩ | ⟨hj, e0⟩
      · exact ⟨c, by simp⟩
      · refine (hi.tasks j u e0).mono (fun _ _ h => h) (List.prefix_refl _) some' (fun k hk hn => ?_)
        have hne : k ≠ h := by intro e'; subst e'; exact hj (hi.makes _ _ _ _ k e0 ht hk rfl)
        show (w.objs.insert h c).find k = none
        rw [OMap.find_insert_ne _ _ (by first | exact hne | exact Ne.symm hne)]; exact hn
    makes := fun a b x y k e1 e2 m1 m2 => by
      rcases cases_ a x e1 with ⟨rfl, rfl⟩ | ⟨-, f1⟩
      · cases m1
      rcases cases_ b y e2 with ⟨rfl, rfl⟩ | ⟨-, f2⟩
      · cases m2
      exact hi.makes _ _ _ _ k f1 f2 m1 m2
    next := fun j u e => by
      rcases cases_ j u e with ⟨rfl, rfl⟩ | ⟨-, e⟩
      · exact hi.next _ _ ht
      · exact hi.next _ _ e
    seen := fun e h => (hi.seen e h).mono (fun _ _ h => h) (List.prefix_refl _) some_ (fun _ h => h) }

theorem auths_append : ∀ (a b : List (Ev L)), auths (a ++ b) = auths a ++ auths b
  | [], b => rfl
  | e :: a, b => by cases e <;> simp [auths, auths_append a b]

theorem step_inv (hL : Sane L) (ho : Owned L au ky) {evs : List (Ev L)} (hi : Inv L au (Asked evs) (auths evs) w effs) {e : Ev L}
    {es : List (Eff L)} (hs : step L w e = .ok (w', es)) : Inv L au (Asked (evs ++ [e])) (auths (evs ++ [e])) w' (effs ++ es) := by
  have hQ : ∀ a b, Asked evs a b → Asked (evs ++ [e]) a b := fun a b ⟨d, h⟩ => ⟨d, List.mem_append_left _ h⟩
  have hA : auths evs <+: auths (evs ++ [e]) := by rw [auths_append]; exact List.prefix_append _ _
  have grow : auths (evs ++ [e]) = auths evs → Inv L au (Asked (evs ++ [e])) (auths (evs ++ [e])) w effs := fun he =>
    hi.grow hQ hA (by rw [he]; exact hi.gen) rfl rfl rfl rfl (fun x h => .inl h) rfl rfl
  cases e with
  | newClient tx auth =>
    cases hs
    rw [List.append_nil]
    have hA' : auths (evs ++ [.newClient tx auth]) = auths evs ++ [auth] := by rw [auths_append]; rfl
    have h1 : Inv L au (Asked (evs ++ [.newClient tx auth])) (auths (evs ++ [.newClient tx auth])) { w with idGen := w.idGen + 1 } effs :=
      hi.grow hQ hA (by rw [hA']; have := hi.gen; simp; omega) rfl rfl rfl rfl (fun x h => .inl h) rfl rfl
    have bound : ∀ h c, w.objs.find h = some c → h ≠ w.idGen := by
      intro h c e hc
      have g := hi.objs h c e
      have := (List.getElem?_eq_some_iff.mp g.auth).1
      have := hi.gen
      have := g.pos
      omega
    refine h1.spawn ⟨by have := hi.gen; omega, ?_, ?_⟩ ?_
    · rw [hA', show w.idGen - 1 = (auths evs).length by have := hi.gen; omega]
      simp
    · cases hf : w.objs.find w.idGen with
      | none => rfl
      | some c => exact absurd rfl (bound _ c hf)
    · intro h hm j u hu hmu
      cases hm
      have := hi.tasks j u hu
      have lt : ∀ {x}, (auths evs)[w.idGen - 1]? = some x → False := by
        intro x e
        have := (List.getElem?_eq_some_iff.mp e).1
        have := hi.gen
        omega
      cases u with
      | newArgs tx h auth => cases hmu; exact lt this.2.1
      | newInit tx h auth dh att => cases hmu; exact lt this.2.1
      | _ => cases hmu
  | existing tx id data =>
    cases hs
    rw [List.append_nil]
    exact (grow (by rw [auths_append]; simp [auths])).spawn ⟨data, by simp⟩ (fun _ e => by cases e)
  | close tx id =>
    cases hs
    rw [List.append_nil]
    exact (grow (by rw [auths_append]; simp [auths])).spawn trivial (fun _ e => by cases e)
  | rotate rnd config limits =>
    have hg := grow (by rw [auths_append]; simp [auths])
    simp only [step] at hs
    split at hs
    · cases hs; rw [List.append_nil]; exact hg
    · cases hs; rw [List.append_nil]; exact hg.spawn trivial (fun _ e => by cases e)
  | refresh config limits =>
    cases hs
    rw [List.append_nil]
    exact (grow (by rw [auths_append]; simp [auths])).spawn trivial (fun _ e => by cases e)
  | complete i res =>
    have hg := grow (by rw [auths_append]; simp [auths])
    simp only [step] at hs
    split at hs
    · cases hs; rw [List.append_nil]; exact hg
    · rename_i tx id hp
      cases hs; rw [List.append_nil]
      have h2 := Inv.grow (w' := { w with pending := w.pending.eraseIdx i }) hg (fun _ _ h => h) (List.prefix_refl _) hg.gen rfl rfl rfl rfl
        (fun x hx => .inl (List.mem_of_mem_eraseIdx hx)) rfl rfl
      exact h2.spawn (hg.pending (tx, id) (List.mem_of_getElem? hp)) (fun _ e => by cases e)
  | run i rnd raft =>
    have hg := grow (by rw [auths_append]; simp [auths])
    simp only [step] at hs
    split at hs
    · cases hs; rw [List.append_nil]; exact hg
    · rename_i t ht
      obtain ⟨⟨w1, nx, es1⟩, hr, hs⟩ := Out.bind_eq_ok.mp hs
      rcases stepTask_after hL ho hg ht hr with ⟨a1, a2, a3⟩ | ⟨tx, h, auth, dh, att, rfl, c, hc, hrr⟩
      · cases nx with
        | none => cases hs; exact a1.endTask i
        | some t' =>
          cases hs
          exact a1.setTask (t := t) (by rw [show w1.tasks = w.tasks from a2]; exact ht) (a3 t' rfl).2 (a3 t' rfl).1
      · cases hrr
        cases hs
        rw [List.append_nil]
        exact made_inv ho hg ht hc

theorem begin_inv (dh : L.Dh) : Inv L au (Asked ([] : List (Ev L))) (auths ([] : List (Ev L))) (begin L dh) [] where
  gen := rfl
  objs _ _ e := by cases e
  clients _ _ e := by cases e
  tasks _ _ e := by cases e
  makes _ _ _ _ _ e := by cases e
  next _ _ e := by cases e
  pending _ h := by cases h
  att _ _ _ e := by cases e
  seen _ h := by cases h
  apart := .nil

theorem run_inv (hL : Sane L) (ho : Owned L au ky) : ∀ (evs : List (Ev L)) {pre : List (Ev L)} {w w' : World L} {effs es : List (Eff L)},
    Inv L au (Asked pre) (auths pre) w effs → run L w evs = .ok (w', es) →
    Inv L au (Asked (pre ++ evs)) (auths (pre ++ evs)) w' (effs ++ es)
  | [], pre, w, w', effs, es, hi, h => by cases h; simpa using hi
  | e :: evs, pre, w, w', effs, es, hi, h => by
    unfold run at h
    obtain ⟨⟨w1, e1⟩, h1, h⟩ := Out.bind_eq_ok.mp h
    obtain ⟨⟨w2, e2⟩, h2, h⟩ := Out.bind_eq_ok.mp h
    cases h
    have := run_inv hL ho evs (step_inv hL ho hi h1) h2
    simpa using this

end Svr.Clients
