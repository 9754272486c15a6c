import Verif.Wipe

/-!
# Lemmas about memory of row objects
-/

namespace Svr.Wipe

theorem upd_self {A B : Type} [DecidableEq A] (f : A → B) (a : A) (b : B) : upd f a b a = b := by simp [upd]
theorem upd_ne {A B : Type} [DecidableEq A] (f : A → B) {a x : A} (b : B) (h : x ≠ a) : upd f a b x = f x := by
  simp [upd, h]

theorem wiped_zeroOut (v : List Bytes) : Wiped (v.map zeroOut) := by
  intro f hf b hb
  obtain ⟨g, _, rfl⟩ := List.mem_map.mp hf
  exact List.eq_of_mem_replicate hb

variable {K : Type} [DecidableEq K]

/-- Nodes hold `view`; locals `X` hold what is listed; if `b`, everything else is wiped. -/
structure Inv (b : Prop) (m : Mem K) (view : K → Option (List Bytes)) (X : List (Nat × List Bytes)) : Prop where
  sim : ∀ k, (m.node k).map m.cell = view k
  inj : ∀ k k' a, m.node k = some a → m.node k' = some a → k = k'
  loc : ∀ p ∈ X, m.Dead p.1 ∧ m.cell p.1 = p.2
  nod : (X.map Prod.fst).Nodup
  clean : b → ∀ a, m.Dead a → a ∉ X.map Prod.fst → Wiped (m.cell a)

variable {b : Prop} {m : Mem K} {view : K → Option (List Bytes)} {X : List (Nat × List Bytes)}
  {C : K → Class} {kept : Bool}

theorem inv_blank : Inv b (blank : Mem K) (fun _ => none) [] :=
  ⟨fun _ => rfl, fun _ _ _ h => (by cases h), fun _ h => (by cases h), List.nodup_nil,
   fun _ _ _ _ f hf => (by cases hf)⟩

theorem Inv.node_none (h : Inv b m view X) {k : K} (e : view k = none) : m.node k = none := by
  have := h.sim k
  rw [e] at this
  cases hn : m.node k with
  | none => rfl
  | some a => rw [hn] at this; cases this

theorem Inv.node_some (h : Inv b m view X) {k : K} {v : List Bytes} (e : view k = some v) :
    ∃ a, m.node k = some a ∧ m.cell a = v := by
  have := h.sim k
  rw [e] at this
  cases hn : m.node k with
  | none => rw [hn] at this; cases this
  | some a => rw [hn] at this; exact ⟨a, rfl, by simpa using this⟩

/-- A new node at an unused address. -/
theorem Inv.newNode (h : Inv b m view X) {k : K} {a : Nat} (v : List Bytes) (hv : m.node k = none)
    (ha : m.Dead a) (hX : a ∉ X.map Prod.fst) :
    Inv b ⟨upd m.cell a v, upd m.node k (some a)⟩ (upd view k (some v)) X := by
  constructor
  · intro k'
    by_cases e : k' = k
    · subst e; simp [upd]
    · simp only [upd, if_neg e]
      rw [← h.sim k']
      cases hn : m.node k' with
      | none => rfl
      | some a' =>
        have : a' ≠ a := fun e' => ha k' (e' ▸ hn)
        simp [upd, this]
  · intro k1 k2 x h1 h2
    simp only [upd] at h1 h2
    split at h1 <;> split at h2
    · subst_vars; rfl
    · cases h1; exact absurd h2 (ha k2)
    · cases h2; exact absurd h1 (ha k1)
    · exact h.inj _ _ _ h1 h2
  · intro p hp
    have hne : p.1 ≠ a := fun e => hX (e ▸ List.mem_map_of_mem hp)
    refine ⟨fun k' => ?_, ?_⟩
    · simp only [upd]
      split
      · intro e; cases e; exact hne rfl
      · exact (h.loc p hp).1 k'
    · simp only [upd, if_neg hne]; exact (h.loc p hp).2
  · exact h.nod
  · intro hb x hx hxX
    have hne : x ≠ a := by
      rintro rfl; exact hx k (by simp [upd])
    simp only [upd, if_neg hne]
    refine h.clean hb x (fun k' e => ?_) hxX
    have := hx k'
    simp only [upd] at this
    split at this
    · rename_i e'; subst e'; rw [hv] at e; cases e
    · exact this e

/-- A node's fields are set. -/
theorem Inv.setNode (h : Inv b m view X) {k : K} {a : Nat} (v : List Bytes) (hv : m.node k = some a) :
    Inv b { m with cell := upd m.cell a v } (upd view k (some v)) X := by
  constructor
  · intro k'
    by_cases e : k' = k
    · subst e; simp [upd, hv]
    · simp only [upd, if_neg e]
      rw [← h.sim k']
      cases hn : m.node k' with
      | none => rfl
      | some a' =>
        have : a' ≠ a := fun e' => e (h.inj _ _ a (e' ▸ hn) hv)
        simp [upd, this]
  · exact h.inj
  · intro p hp
    have hne : p.1 ≠ a := fun e => (h.loc p hp).1 k (e ▸ hv)
    exact ⟨(h.loc p hp).1, by simp only [upd, if_neg hne]; exact (h.loc p hp).2⟩
  · exact h.nod
  · intro hb x hx hxX
    have hne : x ≠ a := by rintro rfl; exact hx k hv
    simp only [upd, if_neg hne]
    exact h.clean hb x hx hxX

/-- A node ceases to exist, leaving `v`. -/
theorem Inv.freeNode (h : Inv b m view X) {k : K} {a : Nat} (v : List Bytes) (hv : m.node k = some a)
    (hw : b → Wiped v) : Inv b ⟨upd m.cell a v, upd m.node k none⟩ (upd view k none) X := by
  constructor
  · intro k'
    by_cases e : k' = k
    · subst e; simp [upd]
    · simp only [upd, if_neg e]
      rw [← h.sim k']
      cases hn : m.node k' with
      | none => rfl
      | some a' =>
        have : a' ≠ a := fun e' => e (h.inj _ _ a (e' ▸ hn) hv)
        simp [upd, this]
  · intro k1 k2 x h1 h2
    simp only [upd] at h1 h2
    split at h1 <;> split at h2
    · subst_vars; rfl
    · cases h1
    · cases h2
    · exact h.inj _ _ _ h1 h2
  · intro p hp
    have hne : p.1 ≠ a := fun e => (h.loc p hp).1 k (e ▸ hv)
    refine ⟨fun k' => ?_, by simp only [upd, if_neg hne]; exact (h.loc p hp).2⟩
    simp only [upd]
    split
    · exact fun e => by cases e
    · exact (h.loc p hp).1 k'
  · exact h.nod
  · intro hb x hx hxX
    by_cases hne : x = a
    · subst hne; simp only [upd_self]; exact hw hb
    · simp only [upd, if_neg hne]
      refine h.clean hb x (fun k' e => ?_) hxX
      have := hx k'
      simp only [upd] at this
      split at this
      · rename_i e'; subst e'; rw [hv] at e; cases e; exact hne rfl
      · exact this e

/-- Memory outside nodes and locals is written, with zeros if `b`. -/
theorem Inv.scribble (h : Inv b m view X) {a : Nat} (v : List Bytes) (ha : m.Dead a) (hX : a ∉ X.map Prod.fst)
    (hw : b → Wiped v) : Inv b { m with cell := upd m.cell a v } view X := by
  constructor
  · intro k
    rw [← h.sim k]
    cases hn : m.node k with
    | none => simp [hn]
    | some a' =>
      have : a' ≠ a := fun e' => ha k (e' ▸ hn)
      simp [upd, hn, this]
  · exact h.inj
  · intro p hp
    have hne : p.1 ≠ a := fun e => hX (e ▸ List.mem_map_of_mem hp)
    exact ⟨(h.loc p hp).1, by simp only [upd, if_neg hne]; exact (h.loc p hp).2⟩
  · exact h.nod
  · intro hb x hx hxX
    by_cases hne : x = a
    · subst hne; simp only [upd_self]; exact hw hb
    · simp only [upd, if_neg hne]; exact h.clean hb x hx hxX

/-- A local object comes to exist. -/
theorem Inv.newLocal (h : Inv b m view X) {t : Nat} (v : List Bytes) (ht : m.Dead t) (hX : t ∉ X.map Prod.fst) :
    Inv b { m with cell := upd m.cell t v } view ((t, v) :: X) := by
  constructor
  · intro k
    rw [← h.sim k]
    cases hn : m.node k with
    | none => simp [hn]
    | some a' =>
      have : a' ≠ t := fun e' => ht k (e' ▸ hn)
      simp [upd, hn, this]
  · exact h.inj
  · intro p hp
    rcases List.mem_cons.mp hp with rfl | hp
    · exact ⟨ht, by simp [upd]⟩
    · have hne : p.1 ≠ t := fun e => hX (e ▸ List.mem_map_of_mem hp)
      exact ⟨(h.loc p hp).1, by simp only [upd, if_neg hne]; exact (h.loc p hp).2⟩
  · simpa using ⟨by simpa using hX, h.nod⟩
  · intro hb x hx hxX
    simp only [List.map_cons, List.mem_cons, not_or] at hxX
    simp only [upd, if_neg hxX.1]
    exact h.clean hb x hx hxX.2

/-- A local object is changed. -/
theorem Inv.setLocal {t : Nat} {v : List Bytes} (h : Inv b m view ((t, v) :: X)) (v' : List Bytes) :
    Inv b { m with cell := upd m.cell t v' } view ((t, v') :: X) := by
  have hd := (h.loc (t, v) List.mem_cons_self).1
  have hX : t ∉ X.map Prod.fst := by have := h.nod; simp only [List.map_cons, List.nodup_cons] at this; exact this.1
  constructor
  · intro k
    rw [← h.sim k]
    cases hn : m.node k with
    | none => simp [hn]
    | some a' =>
      have : a' ≠ t := fun e' => hd k (e' ▸ hn)
      simp [upd, hn, this]
  · exact h.inj
  · intro p hp
    rcases List.mem_cons.mp hp with rfl | hp
    · exact ⟨hd, by simp [upd]⟩
    · have hne : p.1 ≠ t := fun e => hX (e ▸ List.mem_map_of_mem hp)
      have := h.loc p (List.mem_cons_of_mem _ hp)
      exact ⟨this.1, by simp only [upd, if_neg hne]; exact this.2⟩
  · exact h.nod
  · intro hb x hx hxX
    have hne : x ≠ t := fun e => hxX (by simp [e])
    simp only [upd, if_neg hne]
    exact h.clean hb x hx hxX

/-- A local object ceases to exist. -/
theorem Inv.endLocal {t : Nat} {v : List Bytes} (h : Inv b m view ((t, v) :: X)) (hw : b → Wiped v) :
    Inv b m view X := by
  refine ⟨h.sim, h.inj, fun p hp => h.loc p (List.mem_cons_of_mem _ hp), (List.nodup_cons.mp h.nod).2, ?_⟩
  intro hb x hx hxX
  by_cases e : x = t
  · subst e
    have := (h.loc (x, v) List.mem_cons_self).2
    simp only at this
    rw [this]; exact hw hb
  · exact h.clean hb x hx (by simpa using ⟨e, by simpa using hxX⟩)

/-! ### Actions -/

theorem Inv.put {V : Type} (h : Inv b m view X) {k : K} {a : Nat} {found : Option V} (v : List Bytes)
    (hf : found.isSome = (view k).isSome) (ha : m.Dead a) (hX : a ∉ X.map Prod.fst) :
    Inv b (acts C kept m (putActs k found a v)) (upd view k (some v)) X := by
  cases found with
  | none =>
    have hn := h.node_none (Option.isNone_iff_eq_none.mp (by simpa using hf.symm))
    have h1 := h.newNode ((C k).fresh (m.cell a)) hn ha hX
    have e : upd m.node k (some a) k = some a := upd_self _ _ _
    have h2 := h1.setNode v e
    have e2 : acts C kept m (putActs k (none : Option V) a v) =
        ⟨upd (upd m.cell a ((C k).fresh (m.cell a))) a v, upd m.node k (some a)⟩ := by
      simp only [putActs, acts, List.cons_append, List.nil_append, List.foldl_cons, List.foldl_nil, act, upd_self]
    rw [e2]
    have e3 : upd (upd view k (some ((C k).fresh (m.cell a)))) k (some v) = upd view k (some v) := by
      funext x; simp only [upd]; split <;> rfl
    rw [e3] at h2; exact h2
  | some _ =>
    obtain ⟨v0, hv0⟩ := Option.isSome_iff_exists.mp hf.symm
    obtain ⟨a0, hn, _⟩ := h.node_some hv0
    have e2 : acts C kept m (putActs k (some ‹V›) a v) = { m with cell := upd m.cell a0 v } := by
      simp only [putActs, acts, List.nil_append, List.foldl_cons, List.foldl_nil, act, hn]
    rw [e2]; exact h.setNode v hn

theorem Inv.assign (h : Inv b m view X) {k : K} (v : List Bytes) (hv : (view k).isSome) :
    Inv b (act C kept m (.assign k v)) (upd view k (some v)) X := by
  obtain ⟨v0, hv0⟩ := Option.isSome_iff_exists.mp hv
  obtain ⟨a0, hn, _⟩ := h.node_some hv0
  simp only [act, hn]; exact h.setNode v hn

theorem Inv.erase (h : Inv b m view X) {k : K} {s : Bool}
    (hw : b → ∀ v, view k = some v → Wiped ((C k).dtor (if s && kept then v.map zeroOut else v))) :
    Inv b (act C kept m (.erase k s)) (upd view k none) X := by
  cases hk : view k with
  | none =>
    have e : upd view k none = view := by
      funext x; simp only [upd]; split
      · rename_i e; rw [e, hk]
      · rfl
    simp only [act, h.node_none hk]; rw [e]; exact h
  | some v =>
    obtain ⟨a, hn, hc⟩ := h.node_some hk
    simp only [act, hn, hc]
    exact h.freeNode _ hn (fun hb => hw hb v hk)

theorem Inv.eraseList (ks : List K) : ∀ {m : Mem K} {view : K → Option (List Bytes)}, Inv b m view X →
    (b → ∀ k ∈ ks, ∀ v, view k = some v → Wiped ((C k).dtor v)) →
    Inv b (acts C kept m (ks.map (fun k => .erase k false))) (fun k => if k ∈ ks then none else view k) X := by
  induction ks with
  | nil => intro m view h _; simpa [acts] using h
  | cons k t ih =>
    intro m view h hw
    have h1 := h.erase (C := C) (kept := kept) (k := k) (s := false)
      (fun hb v hv => by simpa using hw hb k List.mem_cons_self v hv)
    have h2 := ih h1 (fun hb k' hk' v hv => by
      simp only [upd] at hv
      split at hv
      · cases hv
      · exact hw hb k' (List.mem_cons_of_mem _ hk') v hv)
    have e : (fun k' => if k' ∈ t then none else upd view k none k') = fun k' => if k' ∈ k :: t then none else view k' := by
      funext x
      by_cases h1 : x = k <;> by_cases h2 : x ∈ t <;> simp [upd, h1, h2]
    rw [e] at h2
    exact h2

theorem Inv.eraseAll (ks : List K) {view' : K → Option (List Bytes)} (h : Inv b m view X)
    (hw : b → ∀ k ∈ ks, ∀ v, view k = some v → Wiped ((C k).dtor v))
    (h1 : ∀ k ∈ ks, view' k = none) (h2 : ∀ k, k ∉ ks → view' k = view k) :
    Inv b (acts C kept m (ks.map (fun k => .erase k false))) view' X := by
  have e : view' = fun k => if k ∈ ks then none else view k := by
    funext k
    by_cases hk : k ∈ ks
    · rw [if_pos hk, h1 k hk]
    · rw [if_neg hk, h2 k hk]
  rw [e]; exact h.eraseList ks hw

theorem Inv.build (h : Inv b m view X) {k : K} {t : Nat} (v : List Bytes) (ht : m.Dead t) (hX : t ∉ X.map Prod.fst) :
    Inv b (act C kept m (.build k t v)) view ((t, v) :: X) := h.newLocal v ht hX

theorem Inv.moveIn {t : Nat} {v : List Bytes} (h : Inv b m view ((t, v) :: X)) {k : K} {a : Nat}
    (hk : view k = none) (ha : m.Dead a) (hX : a ∉ ((t, v) :: X).map Prod.fst) :
    Inv b (act C kept m (.moveIn k t a)) (upd view k (some v)) ((t, (C k).moved v) :: X) := by
  have hc : m.cell t = v := (h.loc (t, v) List.mem_cons_self).2
  have h1 := h.newNode v (h.node_none hk) ha hX
  have h2 := h1.setLocal ((C k).moved v)
  simp only [act, h.node_none hk, hc]
  exact h2

theorem Inv.moveIn_present {t : Nat} {v w : List Bytes} (h : Inv b m view ((t, v) :: X)) {k : K} {a : Nat}
    (hk : view k = some w) (ha : m.Dead a) (hX : a ∉ ((t, v) :: X).map Prod.fst)
    (hw : b → Wiped ((C k).dtor v)) :
    Inv b (act C kept m (.moveIn k t a)) view ((t, (C k).moved v) :: X) := by
  have hc : m.cell t = v := (h.loc (t, v) List.mem_cons_self).2
  obtain ⟨a0, hn, _⟩ := h.node_some hk
  have h1 := h.scribble ((C k).dtor v) ha hX hw
  have h2 := h1.setLocal ((C k).moved v)
  simp only [act, hn, hc]
  exact h2

theorem Inv.destroy {t : Nat} {v : List Bytes} (h : Inv b m view ((t, v) :: X)) {k : K}
    (hw : b → Wiped ((C k).dtor v)) : Inv b (act C kept m (.destroy k t)) view X := by
  have hc : m.cell t = v := (h.loc (t, v) List.mem_cons_self).2
  have h1 := h.setLocal ((C k).dtor v)
  simp only [act, hc]
  exact h1.endLocal hw

theorem Inv.load (h : Inv b m view []) {k : K} {t a : Nat} (v : List Bytes) (hk : view k = none)
    (ht : m.Dead t) (ha : m.Dead a) (hta : a ≠ t) (hw : b → Wiped ((C k).dtor ((C k).moved v))) :
    Inv b (acts C kept m (loadActs k t a v)) (upd view k (some v)) [] := by
  have h1 := h.build (C := C) (kept := kept) (k := k) v ht (by simp)
  have h2 := h1.moveIn (C := C) (kept := kept) hk (a := a) ha (by simpa using hta)
  exact h2.destroy (C := C) (kept := kept) (k := k) hw

theorem acts_append (l1 l2 : List (Act K)) : acts C kept m (l1 ++ l2) = acts C kept (acts C kept m l1) l2 :=
  List.foldl_append

/-- What holds along every history, from what holds of one event. -/
theorem Reach.inv {D E : Type} {next : D → E → D → Prop} {does : D → E → Where → List (Act K)} {d0 : D}
    (view : D → K → Option (List Bytes)) (h0 : view d0 = fun _ => none)
    (hs : ∀ d m e d' w, next d e d' → w.Free m → Inv b m (view d) [] → Inv b (acts C kept m (does d e w)) (view d') [])
    {d : D} {m : Mem K} (h : Reach C kept next does d0 d m) : Inv b m (view d) [] := by
  induction h with
  | start => rw [h0]; exact inv_blank
  | step _ hn hw ih => exact hs _ _ _ _ _ hn hw ih

/-- A field holding a byte other than zero belongs to a row. -/
theorem Inv.owned (h : Inv b m view []) (hb : b) {a : Nat} {f : Bytes} (hf : f ∈ m.cell a) (hz : ∃ x ∈ f, x ≠ 0) :
    ∃ k v, view k = some v ∧ f ∈ v := by
  obtain ⟨x, hx, hx0⟩ := hz
  by_cases hd : m.Dead a
  · exact absurd (h.clean hb a hd (by simp) f hf x hx) hx0
  · have : ∃ k, m.node k = some a := by
      by_contra hc
      exact hd (fun k e => hc ⟨k, e⟩)
    obtain ⟨k, hk⟩ := this
    refine ⟨k, m.cell a, ?_, hf⟩
    rw [← h.sim k, hk]; rfl

end Svr.Wipe
