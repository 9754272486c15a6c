import Verif.Spec.Sessions
import Verif.Props.Noise

/-! # Client sessions: lemmas -/

namespace Svr.Clients

variable {L : Lib} {au : L.Cs → Bytes} {ky : L.Log → Bytes}

/-- An object as it is made, used and left. -/
structure Good (L : Lib) (au : L.Cs → Bytes) (A : List Bytes) (h : Nat) (c : Client L) : Prop where
  pos : 1 ≤ h
  auth : A[h - 1]? = some (au c.cs)
  from_ : ∃ dh, L.pub dh = some c.start.1 ∧ (∀ a, c.start.2 = some a → Vouches L c.start.1 a) ∧
    (∀ hs, c.hs = some hs → HsFrom L dh hs ∧ c.tx = none) ∧
    (∀ t, c.tx = some t → ∃ r out, c.rx = some r ∧ KeysFrom L dh t.key r.key out)
  txn : ∀ t, c.tx = some t → t.nonce ≤ Noise.lastNonce
  rxn : ∀ t, c.rx = some t → t.nonce ≤ Noise.lastNonce

/-- The same object later. -/
structure Later (c c' : Client L) : Prop where
  start : c'.start = c.start
  tx : ∀ t, c.tx = some t → ∃ t', c'.tx = some t' ∧ t'.key = t.key ∧ t.nonce ≤ t'.nonce
  rx : ∀ t, c.rx = some t → ∃ t', c'.rx = some t' ∧ t'.key = t.key

theorem Later.refl (c : Client L) : Later c c := ⟨rfl, fun t h => ⟨t, h, rfl, le_rfl⟩, fun t h => ⟨t, h, rfl⟩⟩

/-- A log entry made for the client `h`. -/
def Made (L : Lib) (au : L.Cs → Bytes) (A : List Bytes) (h : Nat) (data : Bytes) : Prop :=
  ∃ cs req rnd log, A[h - 1]? = some (au cs) ∧ L.logFrom cs req rnd = some log ∧ L.validate log = true ∧ L.serLog log = some data

/-- What a thread relies on. `O` says which objects there are. -/
def TaskOk (L : Lib) (au : L.Cs → Bytes) (Q : Nat → Nat → Prop) (A : List Bytes) (w : World L) : Task L → Prop
  | .newArgs _ h auth => 1 ≤ h ∧ A[h - 1]? = some auth ∧ w.objs.find h = none
  | .newInit _ h auth dh att => 1 ≤ h ∧ A[h - 1]? = some auth ∧ w.objs.find h = none ∧
      ∀ p a, L.pub dh = some p → att = some a → Vouches L p a
  | .newReply _ h => ∃ c, w.objs.find h = some c
  | .existing tx id _ => Q tx id
  | .write tx id h data => Q tx id ∧ id = idOf h ∧ (∃ c, w.objs.find h = some c) ∧ Made L au A h data
  | .handshaking tx id h _ | .finish tx id h _ | .decrypt tx id h _ | .respond tx id h _ | .encrypt tx id h _ | .log tx id h _
  | .effect tx id h _ | .encryptEff tx id h _ => Q tx id ∧ id = idOf h ∧ ∃ c, w.objs.find h = some c
  | .done tx id _ => Q tx id
  | .drop tx id _ => True
  | .close _ _ => True
  | .attest _ _ _ => True
  | .store dh att => ∀ p, L.pub dh = some p → Vouches L p att

/-- The object that a thread is about to make. -/
def Task.makes : Task L → Option Nat
  | .newArgs _ h _ => some h
  | .newInit _ h _ _ _ => some h
  | _ => none

/-- What is true of an effect. -/
def EffOk (L : Lib) (au : L.Cs → Bytes) (Q : Nat → Nat → Prop) (A : List Bytes) (w : World L) (effs : List (Eff L)) : Eff L → Prop
  | .reply tx (.data ct) => ∃ id h k n p m, Q tx id ∧ id = idOf h ∧ .sealed h k n p ∈ effs ∧
      Noise.encrypt (L.aead k) Noise.maxMessage withAd n p = .ok (m, some ct)
  | .reply _ (.newClient id pub att) => ∃ h c, id = idOf h ∧ w.objs.find h = some c ∧ c.start = (pub, att)
  | .reply tx (.hello out) => ∃ id h c t r dh, Q tx id ∧ id = idOf h ∧ w.objs.find h = some c ∧ c.tx = some t ∧ c.rx = some r ∧
      L.pub dh = some c.start.1 ∧ KeysFrom L dh t.key r.key out
  | .reply _ _ => True
  | .sealed h k n p => ∃ c t m o, w.objs.find h = some c ∧ c.tx = some t ∧ t.key = k ∧
      Noise.encrypt (L.aead k) Noise.maxMessage withAd n p = .ok (m, o) ∧ m ≤ t.nonce
  | .propose tx id data => ∃ h, Q tx id ∧ id = idOf h ∧ Made L au A h data

/-- Two encryptions of one object: the same key, and later nonces. -/
def Apart (L : Lib) (a b : Eff L) : Prop := ∀ h k n p k' n' p', a = .sealed h k n p → b = .sealed h k' n' p' →
  k' = k ∧ ∃ m o, Noise.encrypt (L.aead k) Noise.maxMessage withAd n p = .ok (m, o) ∧ m ≤ n'

structure Inv (L : Lib) (au : L.Cs → Bytes) (Q : Nat → Nat → Prop) (A : List Bytes) (w : World L) (effs : List (Eff L)) : Prop where
  gen : w.idGen = 1 + A.length
  objs : ∀ h c, w.objs.find h = some c → Good L au A h c
  clients : ∀ id h, w.clients.find id = some h → id = idOf h ∧ ∃ c, w.objs.find h = some c
  tasks : ∀ i t, w.tasks.find i = some t → TaskOk L au Q A w t
  makes : ∀ i j t u h, w.tasks.find i = some t → w.tasks.find j = some u → t.makes = some h → u.makes = some h → i = j
  next : ∀ i t, w.tasks.find i = some t → i < w.nextTask
  pending : ∀ x ∈ w.pending, Q x.1 x.2
  att : ∀ p a, L.pub w.dh = some p → w.att = some a → Vouches L p a
  seen : ∀ e ∈ effs, EffOk L au Q A w effs e
  apart : effs.Pairwise (Apart L)

section
variable {Q Q' : Nat → Nat → Prop} {A A' : List Bytes} {w w' : World L} {effs effs' : List (Eff L)}

theorem getElem_prefix {l l' : List Bytes} (h : l <+: l') {i : Nat} {x : Bytes} (e : l[i]? = some x) : l'[i]? = some x := by
  obtain ⟨t, rfl⟩ := h
  rw [List.getElem?_append_left (by have := List.getElem?_eq_some_iff.mp e; exact this.1)]
  exact e

theorem Made.mono (hA : A <+: A') {h : Nat} {d : Bytes} (hm : Made L au A h d) : Made L au A' h d := by
  obtain ⟨cs, req, rnd, log, h1, h2⟩ := hm
  exact ⟨cs, req, rnd, log, getElem_prefix hA h1, h2⟩

theorem Good.mono (hA : A <+: A') {h : Nat} {c : Client L} (g : Good L au A h c) : Good L au A' h c :=
  { g with auth := getElem_prefix hA g.auth }

theorem TaskOk.mono (hQ : ∀ a b, Q a b → Q' a b) (hA : A <+: A')
    (hn : ∀ h c, w.objs.find h = some c → ∃ c', w'.objs.find h = some c')
    {t : Task L} (hm : ∀ h, t.makes = some h → w.objs.find h = none → w'.objs.find h = none) (h : TaskOk L au Q A w t) :
    TaskOk L au Q' A' w' t := by
  have ho : ∀ {h}, (∃ c, w.objs.find h = some c) → ∃ c, w'.objs.find h = some c := fun ⟨c, hc⟩ => hn _ c hc
  cases t with
  | newArgs tx h' auth => exact ⟨h.1, getElem_prefix hA h.2.1, hm _ rfl h.2.2⟩
  | newInit tx h' auth dh att => exact ⟨h.1, getElem_prefix hA h.2.1, hm _ rfl h.2.2.1, h.2.2.2⟩
  | newReply tx h' => exact ho h
  | existing tx id d => exact hQ _ _ h
  | write tx id h' data => exact ⟨hQ _ _ h.1, h.2.1, ho h.2.2.1, h.2.2.2.mono hA⟩
  | done tx id res => exact hQ _ _ h
  | drop => trivial
  | close => trivial
  | attest => trivial
  | store => exact h
  | _ => exact ⟨hQ _ _ h.1, h.2.1, ho h.2.2⟩

theorem EffOk.mono (hQ : ∀ a b, Q a b → Q' a b) (hA : A <+: A')
    (hn : ∀ h c, w.objs.find h = some c → ∃ c', w'.objs.find h = some c' ∧ Later c c') (he : ∀ e ∈ effs, e ∈ effs')
    {e : Eff L} (h : EffOk L au Q A w effs e) : EffOk L au Q' A' w' effs' e := by
  cases e with
  | reply tx r =>
    cases r with
    | data ct =>
      obtain ⟨id, h', k, n, p, m, h1, h2, h3, h4⟩ := h
      exact ⟨id, h', k, n, p, m, hQ _ _ h1, h2, he _ h3, h4⟩
    | newClient id pub att =>
      obtain ⟨h', c, h1, h2, h3⟩ := h
      obtain ⟨c', h4, h5⟩ := hn _ _ h2
      exact ⟨h', c', h1, h4, h5.start.trans h3⟩
    | hello out =>
      obtain ⟨id, h', c, t, r, dh, h1, h2, h3, h4, h5, h6, h7⟩ := h
      obtain ⟨c', k1, k2⟩ := hn _ _ h3
      obtain ⟨t', k3, k4, -⟩ := k2.tx t h4
      obtain ⟨r', k5, k6⟩ := k2.rx r h5
      exact ⟨id, h', c', t', r', dh, hQ _ _ h1, h2, k1, k3, k5, by rw [k2.start]; exact h6, by rw [k4, k6]; exact h7⟩
    | _ => trivial
  | sealed h' k n p =>
    obtain ⟨c, t, m, o, h1, h2, h3, h4, h5⟩ := h
    obtain ⟨c', k1, k2⟩ := hn _ _ h1
    obtain ⟨t', k3, k4, k5⟩ := k2.tx t h2
    exact ⟨c', t', m, o, k1, k3, k4.trans h3, h4, h5.trans k5⟩
  | propose tx id data =>
    obtain ⟨h', h1, h2, h3⟩ := h
    exact ⟨h', hQ _ _ h1, h2, h3.mono hA⟩

/-- A world that differs in tasks, clients, pending calls, attestation. -/
theorem Inv.grow (hi : Inv L au Q A w effs) (hQ : ∀ a b, Q a b → Q' a b) (hA : A <+: A') (hg : w'.idGen = 1 + A'.length)
    (ho : w'.objs = w.objs) (hc : w'.clients = w.clients) (ht : w'.tasks = w.tasks) (hn : w'.nextTask = w.nextTask)
    (hp : ∀ x ∈ w'.pending, x ∈ w.pending ∨ Q' x.1 x.2) (hd : w'.dh = w.dh) (ha : w'.att = w.att) : Inv L au Q' A' w' effs where
  gen := hg
  objs h c e := (hi.objs h c (by rw [← ho]; exact e)).mono hA
  clients id h e := by rw [hc] at e; rw [ho]; exact hi.clients id h e
  tasks i t e := (hi.tasks i t (by rw [← ht]; exact e)).mono hQ hA (by rw [ho]; exact fun h c e => ⟨c, e⟩) (by rw [ho]; exact fun _ _ e => e)
  makes := by rw [ht]; exact hi.makes
  next := by rw [ht, hn]; exact hi.next
  pending x e := (hp x e).elim (fun e => hQ _ _ (hi.pending x e)) id
  att := by rw [hd, ha]; exact hi.att
  seen e h := (hi.seen e h).mono hQ hA (by rw [ho]; exact fun h c e => ⟨c, e, .refl c⟩) (fun _ h => h)
  apart := hi.apart

/-- Fewer clients. -/
theorem Inv.erase (hi : Inv L au Q A w effs) (id : Nat) : Inv L au Q A { w with clients := w.clients.erase id } effs :=
  { hi with
    clients := fun id' h e => by
      rw [OMap.find_erase] at e
      split at e
      · cases e
      · exact hi.clients id' h e
    tasks := fun i t e => (hi.tasks i t e).mono (fun _ _ h => h) (List.prefix_refl _) (fun h c e => ⟨c, e⟩) (fun _ _ e => e)
    seen := fun e h => (hi.seen e h).mono (fun _ _ h => h) (List.prefix_refl _) (fun h c e => ⟨c, e, .refl c⟩) (fun _ h => h) }

/-- A thread ends. -/
theorem Inv.endTask (hi : Inv L au Q A w effs) (i : Nat) : Inv L au Q A { w with tasks := w.tasks.erase i } effs :=
  have sub : ∀ j t, (w.tasks.erase i).find j = some t → w.tasks.find j = some t := by
    intro j t e
    rw [OMap.find_erase] at e
    split at e
    · cases e
    · exact e
  { hi with
    tasks := fun j t e => (hi.tasks j t (sub j t e)).mono (fun _ _ h => h) (List.prefix_refl _) (fun h c e => ⟨c, e⟩) (fun _ _ e => e)
    makes := fun a b t u h e1 e2 => hi.makes a b t u h (sub _ _ e1) (sub _ _ e2)
    next := fun j t e => hi.next j t (sub j t e)
    seen := fun e h => (hi.seen e h).mono (fun _ _ h => h) (List.prefix_refl _) (fun h c e => ⟨c, e, .refl c⟩) (fun _ h => h) }

/-- A thread goes on to `t'`. -/
theorem Inv.setTask (hi : Inv L au Q A w effs) {i : Nat} {t t' : Task L} (ht : w.tasks.find i = some t)
    (hm : ∀ h, t'.makes = some h → t.makes = some h) (hok : TaskOk L au Q A w t') :
    Inv L au Q A { w with tasks := w.tasks.insert i t' } effs :=
  have cases_ : ∀ j u, (w.tasks.insert i t').find j = some u → (j = i ∧ u = t') ∨ w.tasks.find j = some u := by
    intro j u e
    rw [OMap.find_insert] at e
    split at e
    · rename_i h
      cases e
      exact .inl ⟨by first | exact h.symm | exact h, rfl⟩
    · exact .inr e
  { hi with
    tasks := fun j u e => by
      rcases cases_ j u e with ⟨rfl, rfl⟩ | e
      · exact hok.mono (fun _ _ h => h) (List.prefix_refl _) (fun h c e => ⟨c, e⟩) (fun _ _ e => e)
      · exact (hi.tasks j u e).mono (fun _ _ h => h) (List.prefix_refl _) (fun h c e => ⟨c, e⟩) (fun _ _ e => e)
    makes := fun a b x y h e1 e2 m1 m2 => by
      rcases cases_ a x e1 with ⟨rfl, rfl⟩ | f1 <;> rcases cases_ b y e2 with ⟨rfl, rfl⟩ | f2
      · rfl
      · exact hi.makes _ _ _ _ h ht f2 (hm h m1) m2
      · exact hi.makes _ _ _ _ h f1 ht m1 (hm h m2)
      · exact hi.makes _ _ _ _ h f1 f2 m1 m2
    next := fun j u e => by
      rcases cases_ j u e with ⟨rfl, rfl⟩ | e
      · exact hi.next _ _ ht
      · exact hi.next _ _ e
    seen := fun e h => (hi.seen e h).mono (fun _ _ h => h) (List.prefix_refl _) (fun h c e => ⟨c, e, .refl c⟩) (fun _ h => h) }

/-- A thread begins. -/
theorem Inv.spawn (hi : Inv L au Q A w effs) {t : Task L} (hok : TaskOk L au Q A w t)
    (hm : ∀ h, t.makes = some h → ∀ j u, w.tasks.find j = some u → u.makes ≠ some h) : Inv L au Q A (spawn w t) effs :=
  have cases_ : ∀ j u, (w.tasks.insert w.nextTask t).find j = some u → (j = w.nextTask ∧ u = t) ∨ w.tasks.find j = some u := by
    intro j u e
    rw [OMap.find_insert] at e
    split at e
    · rename_i h
      cases e
      exact .inl ⟨by first | exact h.symm | exact h, rfl⟩
    · exact .inr e
  { hi with
    tasks := fun j u e => by
      rcases cases_ j u e with ⟨rfl, rfl⟩ | e
      · exact hok.mono (fun _ _ h => h) (List.prefix_refl _) (fun h c e => ⟨c, e⟩) (fun _ _ e => e)
      · exact (hi.tasks j u e).mono (fun _ _ h => h) (List.prefix_refl _) (fun h c e => ⟨c, e⟩) (fun _ _ e => e)
    makes := fun a b x y h e1 e2 m1 m2 => by
      rcases cases_ a x e1 with ⟨rfl, rfl⟩ | f1 <;> rcases cases_ b y e2 with ⟨rfl, rfl⟩ | f2
      · rfl
      · exact absurd m2 (hm h m1 _ _ f2)
      · exact absurd m1 (hm h m2 _ _ f1)
      · exact hi.makes _ _ _ _ h f1 f2 m1 m2
    next := fun j u e => by
      rcases cases_ j u e with ⟨rfl, rfl⟩ | e
      · exact Nat.lt_succ_self _
      · exact Nat.lt_succ_of_lt (hi.next _ _ e)
    seen := fun e h => (hi.seen e h).mono (fun _ _ h => h) (List.prefix_refl _) (fun h c e => ⟨c, e, .refl c⟩) (fun _ h => h) }

/-- An object changes. -/
theorem Inv.setObj (hi : Inv L au Q A w effs) {h : Nat} {c c' : Client L} (hc : w.objs.find h = some c) (hg : Good L au A h c')
    (hl : Later c c') : Inv L au Q A { w with objs := w.objs.insert h c' } effs :=
  have some_ : ∀ k d, w.objs.find k = some d → ∃ d', (w.objs.insert h c').find k = some d' ∧ Later d d' := by
    intro k d e
    by_cases hk : k = h
    · subst hk; rw [hc] at e; cases e
      exact ⟨c', by simp, hl⟩
    · exact ⟨d, by rw [OMap.find_insert_ne _ _ (by first | exact hk | exact Ne.symm hk)]; exact e, .refl d⟩
  have some' : ∀ k d, w.objs.find k = some d → ∃ d', (w.objs.insert h c').find k = some d' :=
    fun k d e => (some_ k d e).imp fun _ h => h.1
  { hi with
    objs := fun k d e => by
      by_cases hk : k = h
      · subst hk; rw [OMap.find_insert_self] at e; cases e; exact hg
      · rw [OMap.find_insert_ne _ _ (by first | exact hk | exact Ne.symm hk)] at e; exact hi.objs k d e
    clients := fun id k e => ⟨(hi.clients id k e).1, (hi.clients id k e).2.elim fun d hd => some' k d hd⟩
    tasks := fun i t e => (hi.tasks i t e).mono (fun _ _ h => h) (List.prefix_refl _) some' (fun k hk hn => by
      have : k ≠ h := by intro e; subst e; rw [hc] at hn; cases hn
      show (w.objs.insert h c').find k = none
      rw [OMap.find_insert_ne _ _ (by first | exact this | exact Ne.symm this)]; exact hn)
    seen := fun e h => (hi.seen e h).mono (fun _ _ h => h) (List.prefix_refl _) some_ (fun _ h => h) }

/-- More effects. -/
theorem Inv.emit (hi : Inv L au Q A w effs) {es : List (Eff L)} (he : ∀ e ∈ es, EffOk L au Q A w (effs ++ es) e)
    (ha : es.Pairwise (Apart L)) (hb : ∀ a ∈ effs, ∀ b ∈ es, Apart L a b) : Inv L au Q A w (effs ++ es) :=
  { hi with
    seen := fun e h => by
      rcases List.mem_append.mp h with h | h
      · exact (hi.seen e h).mono (fun _ _ h => h) (List.prefix_refl _) (fun h c e => ⟨c, e, .refl c⟩) (fun _ h => List.mem_append_left _ h)
      · exact he e h
    apart := List.pairwise_append.mpr ⟨hi.apart, ha, hb⟩ }

/-- One effect that is no encryption. -/
theorem Inv.emit1 (hi : Inv L au Q A w effs) {e : Eff L} (he : EffOk L au Q A w (effs ++ [e]) e) (hs : ∀ h k n p, e ≠ .sealed h k n p) :
    Inv L au Q A w (effs ++ [e]) :=
  hi.emit (fun x hx => by rw [List.mem_singleton.mp hx]; exact he) (List.pairwise_singleton _ _)
    (fun a _ b hb h k n p k' n' p' _ e2 => absurd ((List.mem_singleton.mp hb).symm.trans e2) (hs _ _ _ _))

end

end Svr.Clients
