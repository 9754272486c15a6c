import Verif.Props.Merkle
import Verif.Spec.OnTree

/-!
# Database and tree stay in step
-/

namespace Svr.OnTree
open Svr.Merkle

/-! ## Leaves: reading, walking, verifying -/

theorem verify_eq (H : List Bytes → Bytes) (t : Tree Bytes) (l : Nat) (h : Bytes) :
    verify H t l h = (do let x ← read t l; if h = x then walk H t l else .ok false) := by
  unfold verify read walk
  cases hl : getLeaf t l with
  | abort => rfl
  | ub => rfl
  | ok r =>
    simp only [Out.bind_ok]
    cases deref r.hp with
    | abort => rfl
    | ub => rfl
    | ok hp => rfl

/-- If verification always comes to an end, reading and walking do. -/
theorem read_walk {H : List Bytes → Bytes} {t : Tree Bytes} {l : Nat} (h : ∀ x, ∃ b, verify H t l x = .ok b) :
    ∃ x b, read t l = .ok x ∧ walk H t l = .ok b := by
  obtain ⟨b0, h0⟩ := h []
  rw [verify_eq] at h0
  obtain ⟨x, hx, _⟩ := Out.bind_eq_ok.mp h0
  obtain ⟨b, hb⟩ := h x
  rw [verify_eq, hx, Out.bind_ok, if_pos rfl] at hb
  exact ⟨x, b, hx, hb⟩

theorem read_walk_true {H : List Bytes → Bytes} {t : Tree Bytes} {l : Nat} {x : Bytes} (h : verify H t l x = .ok true) :
    read t l = .ok x ∧ walk H t l = .ok true := by
  rw [verify_eq] at h
  obtain ⟨y, hy, h1⟩ := Out.bind_eq_ok.mp h
  by_cases e : x = y
  · rw [if_pos e] at h1; subst e; exact ⟨hy, h1⟩
  · rw [if_neg e] at h1; cases h1

theorem sound_ok {H : List Bytes → Bytes} {t : Tree Bytes} {loc : Bytes → Nat} : ∀ {l : List (Bytes × Bytes)},
    (∀ p ∈ l, ∀ x, ∃ b, verify H t (loc p.1) x = .ok b) → sound H t loc l = .ok ()
  | [], _ => rfl
  | (id, v) :: l, h => by
    obtain ⟨x, b, h1, h2⟩ := read_walk (h (id, v) List.mem_cons_self)
    unfold sound
    rw [h1, Out.bind_ok, h2, Out.bind_ok]
    exact sound_ok fun p hp => h p (List.mem_cons_of_mem _ hp)

/-! ## The table of all leaves -/

/-- `T` holds the leaves of the rows `m`, which are at `loc`, and those of others; none is at two places. -/
structure Joint (m : OMap Bytes Bytes) (loc : Bytes → Nat) (oth T : Table Bytes) : Prop where
  row : ∀ id h, m.find id = some h → T (loc id) = some (.val h)
  apart : ∀ id, m.find id ≠ none → oth (loc id) = none
  inj : ∀ id id', m.find id ≠ none → m.find id' ≠ none → loc id = loc id' → id = id'
  rest : ∀ x, (∀ id, m.find id ≠ none → loc id ≠ x) → T x = oth x

theorem Joint.settled {m : OMap Bytes Bytes} {loc : Bytes → Nat} {oth T : Table Bytes} (j : Joint m loc oth T) (h : oth.settled) :
    T.settled := by
  intro x hx
  by_cases e : ∃ id, m.find id ≠ none ∧ loc id = x
  · obtain ⟨id, h1, rfl⟩ := e
    obtain ⟨v, hv⟩ := Option.ne_none_iff_exists'.mp h1
    rw [j.row id v hv] at hx
    cases hx
  · rw [j.rest x fun id h1 h2 => e ⟨id, h1, h2⟩] at hx
    exact h x hx

theorem Joint.relocate {m : OMap Bytes Bytes} {loc loc' : Bytes → Nat} {oth T : Table Bytes} (j : Joint m loc oth T)
    (h : ∀ id, m.find id ≠ none → loc' id = loc id) : Joint m loc' oth T where
  row id v hv := by rw [h id (by rw [hv]; simp)]; exact j.row id v hv
  apart id h1 := by rw [h id h1]; exact j.apart id h1
  inj a b h1 h2 e := by rw [h a h1, h b h2] at e; exact j.inj a b h1 h2 e
  rest x hx := j.rest x fun id h1 => by rw [← h id h1]; exact hx id h1

theorem Joint.erase {m : OMap Bytes Bytes} {loc : Bytes → Nat} {oth T : Table Bytes} (j : Joint m loc oth T) {id : Bytes} {v : Bytes}
    (hv : m.find id = some v) : ∃ T', T.step (.destroy (loc id)) = some T' ∧ Joint (m.erase id) loc oth T' := by
  have hne : m.find id ≠ none := by rw [hv]; simp
  refine ⟨upd T (loc id) none, by simp only [Table.step, j.row id v hv], ?_, ?_, ?_, ?_⟩
  · intro a h ha
    rw [OMap.find_erase] at ha
    by_cases e : id = a
    · rw [if_pos e] at ha; cases ha
    · rw [if_neg e] at ha
      unfold upd
      rw [if_neg (fun e' => e (j.inj id a hne (by rw [ha]; simp) e'.symm))]
      exact j.row a h ha
  · intro a ha
    refine j.apart a ?_
    rw [OMap.find_erase] at ha
    by_cases e : id = a
    · rw [if_pos e] at ha; simp at ha
    · rw [if_neg e] at ha; exact ha
  · intro a b ha hb
    rw [OMap.find_erase] at ha hb
    have h1 : id ≠ a := fun e => by rw [if_pos e] at ha; simp at ha
    have h2 : id ≠ b := fun e => by rw [if_pos e] at hb; simp at hb
    rw [if_neg h1] at ha
    rw [if_neg h2] at hb
    exact j.inj a b ha hb
  · intro x hx
    unfold upd
    by_cases e : x = loc id
    · rw [if_pos e, e, j.apart id hne]
    · rw [if_neg e]
      refine j.rest x fun a ha e' => ?_
      by_cases e2 : id = a
      · subst e2; exact e e'.symm
      · exact hx a (by rw [OMap.find_erase, if_neg e2]; exact ha) e'

/-- A table with a row's value set. -/
theorem Joint.set {m : OMap Bytes Bytes} {loc : Bytes → Nat} {oth T T' : Table Bytes} (j : Joint m loc oth T) (id : Bytes) (v : Bytes)
    (hfree : oth (loc id) = none) (hinj : ∀ a, m.find a ≠ none → loc a = loc id → a = id)
    (hT : ∀ x, T' x = if x = loc id then some (.val v) else T x) : Joint (m.insert id v) loc oth T' := by
  have key : ∀ a, (m.insert id v).find a ≠ none → a = id ∨ m.find a ≠ none := by
    intro a ha
    rw [OMap.find_insert] at ha
    by_cases e : id = a
    · exact .inl e.symm
    · rw [if_neg e] at ha; exact .inr ha
  refine ⟨?_, ?_, ?_, ?_⟩
  · intro a h ha
    rw [OMap.find_insert] at ha
    by_cases e : id = a
    · rw [if_pos e, Option.some.injEq] at ha
      subst e ha
      rw [hT, if_pos rfl]
    · rw [if_neg e] at ha
      rw [hT, if_neg (fun e' => e (hinj a (by rw [ha]; simp) e').symm)]
      exact j.row a h ha
  · intro a ha
    rcases key a ha with rfl | h
    · exact hfree
    · exact j.apart a h
  · intro a b ha hb e
    rcases key a ha with rfl | h1
    · rcases key b hb with rfl | h2
      · rfl
      · exact (hinj b h2 e.symm).symm
    · rcases key b hb with rfl | h2
      · exact hinj a h1 e
      · exact j.inj a b h1 h2 e
  · intro x hx
    have h1 : x ≠ loc id := fun e => hx id (by rw [OMap.find_insert, if_pos rfl]; simp) e.symm
    rw [hT, if_neg h1]
    refine j.rest x fun a ha => hx a ?_
    rw [OMap.find_insert]
    by_cases e : id = a
    · rw [if_pos e]; simp
    · rw [if_neg e]; exact ha

theorem Joint.update {m : OMap Bytes Bytes} {loc : Bytes → Nat} {oth T : Table Bytes} (j : Joint m loc oth T) {id v : Bytes}
    (hv : m.find id = some v) (h : Bytes) : ∃ T', T.step (.update (loc id) h) = some T' ∧ Joint (m.insert id h) loc oth T' := by
  have hne : m.find id ≠ none := by rw [hv]; simp
  refine ⟨upd T (loc id) (some (.val h)), by simp only [Table.step, j.row id v hv], ?_⟩
  exact j.set id h (j.apart id hne) (fun a ha e => j.inj a id ha hne e) fun x => rfl

theorem Joint.mk' {m : OMap Bytes Bytes} {loc : Bytes → Nat} {oth T : Table Bytes} (j : Joint m loc oth T) {id : Bytes}
    (hfree : oth (loc id) = none) (hinj : ∀ a, m.find a ≠ none → loc a ≠ loc id) (temp : Option Nat)
    (htemp : ∀ x ∈ temp, oth x = none ∧ loc id ≠ x ∧ ∀ a, m.find a ≠ none → loc a ≠ x) (h : Bytes) :
    ∃ T', T.run (mkLeaf temp (loc id) h) = some T' ∧ Joint (m.insert id h) loc oth T' := by
  have h0 : T (loc id) = none := by rw [j.rest _ hinj, hfree]
  cases temp with
  | none =>
    refine ⟨upd (upd T (loc id) (some .fresh)) (loc id) (some (.val h)), ?_, ?_⟩
    · simp [mkLeaf, Table.run, Table.step, h0, upd]
    · refine j.set id h hfree (fun a ha e => absurd e (hinj a ha)) fun x => ?_
      unfold upd
      by_cases e : x = loc id <;> simp [e]
  | some y =>
    obtain ⟨c1, c2, c3⟩ := htemp y rfl
    have h1 : T y = none := by rw [j.rest y c3, c1]
    refine ⟨upd (upd (upd (upd (upd T y (some .fresh)) y (some (.val h))) (loc id) (some (.val h))) y (some .moved)) y none, ?_, ?_⟩
    · simp [mkLeaf, Table.run, Table.step, h0, h1, upd, c2]
    · refine j.set id h hfree (fun a ha e => absurd e (hinj a ha)) fun x => ?_
      unfold upd
      by_cases e : x = y
      · subst e; simp [Ne.symm c2, h1]
      · by_cases e2 : x = loc id <;> simp [e, e2, c2]

theorem Table.run_append {α : Type} (s : Table α) (a b : List (Op α)) : s.run (a ++ b) = (s.run a).bind fun s' => s'.run b := by
  induction a generalizing s with
  | nil => rfl
  | cons o a ih =>
    simp only [List.cons_append, Table.run]
    cases s.step o with
    | none => rfl
    | some s' => exact ih s'

theorem Table.run_one {α : Type} {s s' : Table α} {o : Op α} (h : s.step o = some s') : s.run [o] = some s' := by
  simp only [Table.run, h]

/-- The operations for the rows there were. -/
theorem Joint.old {new : OMap Bytes Bytes} {loc : Bytes → Nat} {oth : Table Bytes} : ∀ (xs : List (Bytes × Bytes)) {m : OMap Bytes Bytes} {T : Table Bytes},
    Joint m loc oth T → xs.Pairwise (fun a b => a.1 ≠ b.1) → (∀ p ∈ xs, m.find p.1 = some p.2) →
    ∃ T' m', T.run (xs.flatMap (opsOld new loc)) = some T' ∧ Joint m' loc oth T' ∧
      ∀ id, m'.find id = if ∃ p ∈ xs, p.1 = id then new.find id else m.find id
  | [], m, T, j, _, _ => ⟨T, m, rfl, j, fun id => by simp⟩
  | (a, v) :: xs, m, T, j, hp, hm => by
    have hv := hm (a, v) List.mem_cons_self
    simp only [List.pairwise_cons] at hp
    have : ∃ T1 m1, T.run (opsOld new loc (a, v)) = some T1 ∧ Joint m1 loc oth T1 ∧ m1.find a = new.find a ∧ ∀ id, id ≠ a → m1.find id = m.find id := by
      unfold opsOld
      cases hn : new.find a with
      | none =>
        obtain ⟨T1, h1, h2⟩ := j.erase hv
        exact ⟨T1, _, Table.run_one h1, h2, by rw [OMap.find_erase, if_pos rfl], fun id h => by rw [OMap.find_erase, if_neg (fun e => h e.symm)]⟩
      | some h =>
        by_cases e : h = v
        · subst e
          refine ⟨T, m, ?_, j, hv, fun _ _ => rfl⟩
          simp only [if_true]
          rfl
        · obtain ⟨T1, h1, h2⟩ := j.update hv h
          refine ⟨T1, _, ?_, h2, by rw [OMap.find_insert, if_pos rfl], fun id h => by rw [OMap.find_insert, if_neg (fun e => h e.symm)]⟩
          simp only [e, if_false]
          exact Table.run_one h1
    obtain ⟨T1, m1, h1, h2, h3, h4⟩ := this
    obtain ⟨T2, m2, g1, g2, g3⟩ := Joint.old xs h2 hp.2 (fun p hq => by
      rw [h4 p.1 (fun e => hp.1 p hq e.symm)]
      exact hm p (List.mem_cons_of_mem _ hq))
    refine ⟨T2, m2, ?_, g2, ?_⟩
    · rw [List.flatMap_cons, Table.run_append, h1]; exact g1
    · intro id
      rw [g3 id]
      by_cases e : a = id
      · subst e
        rw [if_neg (fun ⟨p, hq, e⟩ => hp.1 p hq e.symm), if_pos ⟨_, List.mem_cons_self, rfl⟩, h3]
      · by_cases e2 : ∃ p ∈ xs, p.1 = id
        · rw [if_pos e2, if_pos (by obtain ⟨p, hq, e3⟩ := e2; exact ⟨p, List.mem_cons_of_mem _ hq, e3⟩)]
        · rw [if_neg e2, if_neg (by
            rintro ⟨p, hq, e3⟩
            rcases List.mem_cons.mp hq with rfl | hq
            · exact e e3
            · exact e2 ⟨p, hq, e3⟩), h4 id (fun h => e h.symm)]

/-- The operations for new rows. -/
theorem Joint.new {old : OMap Bytes Bytes} {loc fresh : Bytes → Nat} {oth : Table Bytes} {temp : Option Nat} (ids : Bytes → Prop)
    (hloc : ∀ id, old.find id = none → loc id = fresh id)
    (hfree : ∀ id, ids id → old.find id = none → oth (fresh id) = none)
    (hrow : ∀ id a, ids id → ids a → old.find id = none → a ≠ id → loc a ≠ fresh id)
    (htemp : ∀ x ∈ temp, oth x = none ∧ ∀ a, ids a → loc a ≠ x) :
    ∀ (xs : List (Bytes × Bytes)) {m : OMap Bytes Bytes} {T : Table Bytes},
    Joint m loc oth T → xs.Pairwise (fun a b => a.1 ≠ b.1) → (∀ p ∈ xs, ids p.1) → (∀ id, m.find id ≠ none → ids id) →
    (∀ p ∈ xs, old.find p.1 = none → m.find p.1 = none) →
    ∃ T' m', T.run (xs.flatMap (opsNew old fresh temp)) = some T' ∧ Joint m' loc oth T' ∧
      ∀ id v, m'.find id = some v ↔ m.find id = some v ∨ (old.find id = none ∧ (id, v) ∈ xs)
  | [], m, T, j, _, _, _, _ => ⟨T, m, rfl, j, fun id v => by simp⟩
  | (a, w) :: xs, m, T, j, hp, hids, hm, hno => by
    simp only [List.pairwise_cons] at hp
    have ha : ids a := hids (a, w) List.mem_cons_self
    have : ∃ T1 m1, T.run (opsNew old fresh temp (a, w)) = some T1 ∧ Joint m1 loc oth T1 ∧
        (∀ id v, m1.find id = some v ↔ m.find id = some v ∨ (old.find id = none ∧ (id, v) = (a, w))) := by
      unfold opsNew
      cases ho : old.find a with
      | some x =>
        refine ⟨T, m, rfl, j, fun id v => ⟨.inl, ?_⟩⟩
        rintro (h | ⟨h1, h2⟩)
        · exact h
        · cases h2; rw [ho] at h1; cases h1
      | none =>
        have hna := hno (a, w) List.mem_cons_self ho
        have hother : ∀ b, m.find b ≠ none → loc b ≠ loc a := by
          intro b hb
          rw [hloc a ho]
          exact hrow a b ha (hm b hb) ho (fun e => hb (by rw [e]; exact hna))
        obtain ⟨T1, h1, h2⟩ := j.mk' (id := a) (by rw [hloc a ho]; exact hfree a ha ho) hother temp
          (fun x hx => ⟨(htemp x hx).1, (htemp x hx).2 a ha, fun b hb => (htemp x hx).2 b (hm b hb)⟩) w
        refine ⟨T1, _, by rw [hloc a ho] at h1; exact h1, h2, fun id v => ?_⟩
        rw [OMap.find_insert]
        by_cases e : a = id
        · subst e
          rw [if_pos rfl, Option.some.injEq, hna]
          constructor
          · rintro rfl; exact .inr ⟨ho, rfl⟩
          · rintro (h | ⟨_, h⟩)
            · cases h
            · cases h; rfl
        · rw [if_neg e]
          constructor
          · exact .inl
          · rintro (h | ⟨_, h⟩)
            · exact h
            · cases h; exact absurd rfl e
    obtain ⟨T1, m1, h1, h2, h3⟩ := this
    have hm1 : ∀ id, m1.find id ≠ none → m.find id ≠ none ∨ id = a := by
      intro id h
      obtain ⟨v, hv⟩ := Option.ne_none_iff_exists'.mp h
      rcases (h3 id v).mp hv with h | ⟨_, h⟩
      · left; rw [h]; simp
      · cases h; exact .inr rfl
    obtain ⟨T2, m2, g1, g2, g3⟩ := Joint.new ids hloc hfree hrow htemp xs h2 hp.2 (fun p hq => hids p (List.mem_cons_of_mem _ hq))
      (fun id h => (hm1 id h).elim (hm id) (fun e => e ▸ ha))
      (fun p hq ho => by
        by_contra hc
        rcases hm1 p.1 hc with h | h
        · exact h (hno p (List.mem_cons_of_mem _ hq) ho)
        · exact hp.1 p hq h.symm)
    refine ⟨T2, m2, ?_, g2, ?_⟩
    · rw [List.flatMap_cons, Table.run_append, h1]; exact g1
    · intro id v
      rw [g3, h3, List.mem_cons]
      constructor
      · rintro ((h | ⟨h, h'⟩) | ⟨h, h'⟩)
        · exact .inl h
        · exact .inr ⟨h, .inl h'⟩
        · exact .inr ⟨h, .inr h'⟩
      · rintro (h | ⟨h, h' | h'⟩)
        · exact .inl (.inl h)
        · exact .inl (.inr ⟨h, h'⟩)
        · exact .inr ⟨h, h'⟩

theorem keys_distinct (m : OMap Bytes Bytes) : m.list.Pairwise (fun a b => a.1 ≠ b.1) :=
  m.sorted.imp fun h => ne_of_lt h

/-- The operations of a call. -/
theorem Joint.ops {old new : OMap Bytes Bytes} {loc fresh : Bytes → Nat} {oth T : Table Bytes} {temp : Option Nat} (j : Joint old loc oth T)
    (hfree : ∀ id, old.find id = none → new.find id ≠ none → oth (fresh id) = none ∧ ∀ a, old.find a ≠ none → loc a ≠ fresh id)
    (hdist : ∀ id id', old.find id = none → old.find id' = none → new.find id ≠ none → new.find id' ≠ none → fresh id = fresh id' → id = id')
    (htemp : ∀ x ∈ temp, oth x = none ∧ (∀ a, old.find a ≠ none → loc a ≠ x) ∧ ∀ id, old.find id = none → new.find id ≠ none → fresh id ≠ x) :
    ∃ T', T.run (OnTree.ops old new loc fresh temp) = some T' ∧ Joint new (place old loc fresh) oth T' := by
  obtain ⟨T1, m1, h1, h2, h3⟩ := Joint.old (new := new) old.list j (keys_distinct old) (fun p hp => OMap.mem_list.mp hp)
  have hin : ∀ id, (∃ p ∈ old.list, p.1 = id) ↔ old.find id ≠ none := by
    intro id
    constructor
    · rintro ⟨⟨a, v⟩, hp, rfl⟩
      rw [OMap.mem_list.mp hp]; simp
    · intro h
      obtain ⟨v, hv⟩ := Option.ne_none_iff_exists'.mp h
      exact ⟨(id, v), OMap.mem_list.mpr hv, rfl⟩
  have hm1 : ∀ id, m1.find id ≠ none → old.find id ≠ none ∧ new.find id ≠ none := by
    intro id h
    rw [h3 id] at h
    by_cases e : ∃ p ∈ old.list, p.1 = id
    · rw [if_pos e] at h; exact ⟨(hin id).mp e, h⟩
    · rw [if_neg e] at h; exact absurd ((hin id).mpr h) e
  have hpl : ∀ id, old.find id ≠ none → place old loc fresh id = loc id := by
    intro id h
    obtain ⟨v, hv⟩ := Option.ne_none_iff_exists'.mp h
    simp only [place, hv]
  have hpn : ∀ id, old.find id = none → place old loc fresh id = fresh id := by
    intro id h
    simp only [place, h]
  obtain ⟨T2, m2, g1, g2, g3⟩ := Joint.new (old := old) (loc := place old loc fresh) (fresh := fresh) (oth := oth) (temp := temp)
    (fun id => new.find id ≠ none) hpn (fun id h ho => (hfree id ho h).1)
    (fun id a h ha ho hne => by
      by_cases e : old.find a = none
      · rw [hpn a e]; exact fun e' => hne (hdist a id e ho ha h e')
      · rw [hpl a e]; exact (hfree id ho h).2 a e)
    (fun x hx => ⟨(htemp x hx).1, fun a ha => by
      by_cases e : old.find a = none
      · rw [hpn a e]; exact (htemp x hx).2.2 a e ha
      · rw [hpl a e]; exact (htemp x hx).2.1 a e⟩)
    new.list (h2.relocate fun id h => hpl id (hm1 id h).1) (keys_distinct new)
    (fun p hp => by rw [OMap.mem_list.mp hp]; simp) (fun id h => (hm1 id h).2)
    (fun p hp ho => by
      by_contra hc
      exact (hm1 p.1 hc).1 ho)
  refine ⟨T2, ?_, ?_⟩
  · unfold OnTree.ops
    rw [Table.run_append, h1]; exact g1
  · have : m2 = new := by
      refine OMap.ext_find fun id => ?_
      apply Option.ext
      intro v
      rw [g3, h3]
      by_cases e : old.find id = none
      · rw [if_neg (fun h => (hin id).mp h e), e]
        simp [OMap.mem_list]
      · rw [if_pos ((hin id).mpr e)]
        simp [e]
    rw [← this]; exact g2

end Svr.OnTree
