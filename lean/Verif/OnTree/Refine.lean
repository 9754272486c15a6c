import Verif.OnTree.Facts

/-!
# A database on the tree behaves as one without
-/

namespace Svr.OnTree
open Svr.Merkle
variable {D L R A : Type} {F : Face D L R A} {H : List Bytes → Bytes} {zero : Bytes}

/-- A database looks at the walk only of rows it has, and `leaves` and `see` are about the same fields. -/
structure Lawful (F : Face D L R A) : Prop where
  same : ∀ d f, (∀ id h, (F.leaves d).find id = some h → f id = h) → F.see d f = d
  seen : ∀ d f id, (F.leaves (F.see d f)).find id = ((F.leaves d).find id).map fun _ => f id
  asks : ∀ path d c, (∀ id, (F.leaves d).find id ≠ none → path id = true) → F.call path d c = F.call (fun _ => true) d c

/-- Every leaf verifies with its last hash and no other. -/
theorem verify_table {T : Table Bytes} {t : Tree Bytes} (hi : Inv H zero T t) (hset : T.settled) {l : Nat} {x : Bytes}
    (hl : T l = some (.val x)) (h : Bytes) : verify H t l h = .ok (decide (h = x)) := by
  obtain ⟨lvl, hw⟩ := hi.wf
  obtain ⟨p, hp, b1, b2⟩ := hi.val l x hl
  obtain ⟨b, c1, c2⟩ := verify_spec (H := H) hw b1 h
  rw [c1]
  congr 1
  rw [Bool.eq_iff_iff, c2, decide_eq_true_iff, b2]
  refine and_iff_left ?_
  intro m r hm _
  rcases hi.clean m r hm with hc | ⟨l', _, _, e, _⟩
  · exact hc
  · exact absurd e (hset l')

/-- The state of database and tree is as wanted. -/
structure Rel (F : Face D L R A) (H : List Bytes → Bytes) (zero : Bytes) (w : Want D) (s : St D) (T : Table Bytes) : Prop where
  db : s.db = w.db
  loc : s.loc = w.loc
  joint : Joint (F.leaves w.db) w.loc w.others T
  inv : Inv H zero T s.tree

theorem Rel.row {w : Want D} {s : St D} {T : Table Bytes} (r : Rel F H zero w s T) (hset : w.others.settled) {id x : Bytes}
    (hx : (F.leaves w.db).find id = some x) : read s.tree (s.loc id) = .ok x ∧ walk H s.tree (s.loc id) = .ok true := by
  apply read_walk_true
  rw [r.loc, verify_table r.inv (r.joint.settled hset) (r.joint.row id x hx)]
  simp

/-- A call on database and tree, reduced to one on the database. -/
theorem Rel.call_eq (hF : Lawful F) {w : Want D} {s : St D} {T : Table Bytes} (r : Rel F H zero w s T) (hset : w.others.settled)
    (c : Call L R) (fresh : Bytes → Nat) (temp : Option Nat) :
    call F H zero s c fresh temp = (do
      let (d', a) ← F.call (fun _ => true) w.db c
      let t ← run H zero s.tree (ops (F.leaves w.db) (F.leaves d') w.loc fresh temp)
      .ok (⟨d', place (F.leaves w.db) w.loc fresh, t⟩, a)) := by
  have h1 : sound H s.tree s.loc (F.leaves s.db).list = .ok () := by
    apply sound_ok
    intro p hp x
    rw [r.db] at hp
    have := r.joint.row p.1 p.2 (OMap.mem_list.mp hp)
    rw [r.loc]
    exact ⟨_, verify_table r.inv (r.joint.settled hset) this x⟩
  have h2 : seen F s = w.db := by
    unfold seen
    rw [r.db]
    apply hF.same
    intro id h hh
    simp only [leafOf, (r.row hset hh).1]
  have h3 : F.call (pathOf H s.tree s.loc) w.db c = F.call (fun _ => true) w.db c := by
    apply hF.asks
    intro id hh
    obtain ⟨v, hv⟩ := Option.ne_none_iff_exists'.mp hh
    simp only [pathOf, (r.row hset hv).2]
  unfold call consult
  rw [h1, Out.bind_ok]
  simp only [h2, h3]
  rw [r.loc]

theorem Rel.step (hF : Lawful F) {w w' : Want D} {s : St D} {T : Table Bytes} (r : Rel F H zero w s T) {e : Ev L R} {a : Ans A}
    (h : Want.Step F w e w' a) : ∃ s' T', step F H zero s e = .ok (s', a) ∧ Rel F H zero w' s' T' := by
  cases h with
  | call c fresh temp d a hset hfree hdist htemp hc =>
    obtain ⟨T1, h1, h2⟩ := r.joint.ops (new := F.leaves d) (fresh := fresh) (temp := temp)
      (fun id h0 h1 => by
        have := hfree id h0 h1
        unfold Want.used at this
        push Not at this
        exact ⟨this.1, fun a ha => this.2 a ha⟩)
      hdist
      (fun x hx => by
        obtain ⟨h1, h2⟩ := htemp x hx
        unfold Want.used at h1
        push Not at h1
        exact ⟨h1.1, fun a ha => h1.2 a ha, h2⟩)
    obtain ⟨t1, g1, g2⟩ := r.inv.run _ h1
    refine ⟨⟨d, place (F.leaves w.db) w.loc fresh, t1⟩, T1, ?_, rfl, rfl, h2, g2⟩
    unfold OnTree.step
    simp only [r.call_eq hF hset, hc, Out.bind_ok, g1]
  | other o u hu hrow =>
    have : ∃ T', T.step o = some T' ∧ Joint (F.leaves w.db) w.loc u T' := by
      have j := r.joint
      have hsame : ∀ x, takes o x → T x = w.others x := fun x hx => j.rest x (hrow x hx)
      -- both tables change in the same way
      have hgen : ∀ (f : Table Bytes → Table Bytes), (∀ x, takes o x → f T x = f w.others x) →
          (∀ (S : Table Bytes) x, ¬ takes o x → f S x = S x) → Joint (F.leaves w.db) w.loc (f w.others) (f T) := by
        intro f hf1 hf2
        refine ⟨?_, ?_, j.inj, ?_⟩
        · intro id h hh
          rw [hf2 T _ (fun ht => hrow _ ht id (by rw [hh]; simp) rfl)]
          exact j.row id h hh
        · intro id hh
          rw [hf2 _ _ (fun ht => hrow _ ht id hh rfl)]
          exact j.apart id hh
        · intro x hx
          by_cases ht : takes o x
          · exact hf1 x ht
          · rw [hf2 T x ht, hf2 _ x ht]; exact j.rest x hx
      have hupd : ∀ (l : Nat) (v : Option (Life Bytes)), (∀ x, takes o x ↔ x = l) → Joint (F.leaves w.db) w.loc (upd w.others l v) (upd T l v) := by
        intro l v hl
        refine hgen (fun S => upd S l v) ?_ ?_
        · intro x hx; rw [(hl x).mp hx]; simp [upd]
        · intro S x hx; rw [hl] at hx; simp [upd, hx]
      cases o with
      | create l =>
        simp only [Table.step, hsame l rfl] at hu ⊢
        split at hu
        · cases hu; exact ⟨_, rfl, hupd l _ fun x => Iff.rfl⟩
        · cases hu
      | update l h =>
        simp only [Table.step, hsame l rfl] at hu ⊢
        split at hu
        · cases hu; exact ⟨_, rfl, hupd l _ fun x => Iff.rfl⟩
        · cases hu; exact ⟨_, rfl, hupd l _ fun x => Iff.rfl⟩
        · cases hu
      | destroy l =>
        simp only [Table.step, hsame l rfl] at hu ⊢
        split at hu
        · cases hu; exact ⟨_, rfl, hupd l _ fun x => Iff.rfl⟩
        · cases hu
      | move a b =>
        simp only [Table.step, hsame a (.inl rfl), hsame b (.inr rfl)] at hu ⊢
        have h2 : ∀ v v', Joint (F.leaves w.db) w.loc (upd (upd w.others b v) a v') (upd (upd T b v) a v') := by
          intro v v'
          refine hgen (fun S => upd (upd S b v) a v') ?_ ?_
          · rintro x (rfl | rfl)
            · simp [upd]
            · simp only [upd, if_true]
          · intro S x hx
            simp only [takes, not_or] at hx
            simp [upd, hx.1, hx.2]
        split at hu
        · cases hu; exact ⟨_, rfl, h2 _ _⟩
        · cases hu; exact ⟨_, rfl, h2 _ _⟩
        · cases hu
    obtain ⟨T', h1, h2⟩ := this
    obtain ⟨t', g1, g2⟩ := r.inv.step h1
    refine ⟨{ s with tree := t' }, T', ?_, r.db, r.loc, h2, g2⟩
    unfold OnTree.step
    simp only [g1, Out.bind_ok]
  | check l x h hset hl =>
    refine ⟨s, T, ?_, r⟩
    have hT : T l = some (.val x) := by
      rw [r.joint.rest l (fun id hid e => ?_), hl]
      have := r.joint.apart id hid
      rw [e, hl] at this
      cases this
    unfold OnTree.step
    simp only [verify_table r.inv (r.joint.settled hset) hT h, Out.bind_ok]

theorem Rel.steps (hF : Lawful F) {w w' : Want D} {es : List (Ev L R)} {as : List (Ans A)} (h : Want.Steps F w es w' as) :
    ∀ {s : St D} {T : Table Bytes}, Rel F H zero w s T → ∃ s' T', steps F H zero s es = .ok (s', as) ∧ Rel F H zero w' s' T' := by
  induction h with
  | nil w => intro s T r; exact ⟨s, T, rfl, r⟩
  | cons w w' w'' e es a as h hs ih =>
    intro s T r
    obtain ⟨s1, T1, h1, r1⟩ := r.step hF h
    obtain ⟨s2, T2, h2, r2⟩ := ih r1
    refine ⟨s2, T2, ?_, r2⟩
    unfold OnTree.steps
    simp only [h1, Out.bind_ok, h2]

theorem Rel.start {d : D} (hd : F.leaves d = OMap.empty) : ∃ s T, start H zero d = .ok s ∧ Rel F H zero (Want.start d) s T := by
  obtain ⟨t, a1, a2⟩ := Inv.new (H := H) (zero := zero)
  refine ⟨⟨d, fun _ => 0, t⟩, Table.empty, ?_, rfl, rfl, ?_, a2⟩
  · unfold OnTree.start
    rw [a1, Out.bind_ok]
  · have : ∀ id, (F.leaves d).find id = none := by intro id; rw [hd]; rfl
    refine ⟨fun id h hh => ?_, fun id hh => absurd (this id) hh, fun id _ hh => absurd (this id) hh, fun x _ => rfl⟩
    rw [show (Want.start d).db = d from rfl, this] at hh
    cases hh

/-! ## Memory written over -/

/-- The state after someone wrote over the rows and the hashes of the tree. Pointers are as before. -/
def St.write (s : St D) (d : D) (mem : HPtr → Bytes) : St D := ⟨d, s.loc, { s.tree with mem := mem }⟩

/-- Nothing that was written collides with the hashes of a node on the path of the leaf at `l`. -/
def Apart (H : List Bytes → Bytes) (t : Tree Bytes) (l : Nat) (mem : HPtr → Bytes) : Prop :=
  ∀ n, Props.Merkle.OnPath t l n → H (hashesIn mem n) = H (hashesIn t.mem n) → hashesIn mem n = hashesIn t.mem n

theorem Rel.verifies {w : Want D} {s : St D} {T : Table Bytes} (r : Rel F H zero w s T) {id x : Bytes} (hx : (F.leaves w.db).find id = some x)
    (mem : HPtr → Bytes) (h : Bytes) : ∃ b, verify H { s.tree with mem := mem } (s.loc id) h = .ok b := by
  have hl := r.joint.row id x hx
  rw [← r.loc] at hl
  obtain ⟨lvl, hw⟩ := r.inv.wf
  obtain ⟨p, hp, b1, b2⟩ := r.inv.val _ x hl
  obtain ⟨b, c1, _⟩ := verify_spec (H := H) (t := { s.tree with mem := mem }) hw b1 h
  exact ⟨b, c1⟩

/-- Whatever was written, apart from `roothash_`: if the walk from a row's leaf finds nothing wrong, the hash in the leaf is the
last one it was given. -/
theorem Rel.tampered {w : Want D} {s : St D} {T : Table Bytes} (r : Rel F H zero w s T) (hset : w.others.settled) {id x : Bytes}
    (hx : (F.leaves w.db).find id = some x) (d : D) (mem : HPtr → Bytes) (hroot : mem .root = s.tree.mem .root)
    (hcol : Apart H s.tree (s.loc id) mem) :
    pathOf H (s.write d mem).tree (s.write d mem).loc id = true → leafOf (s.write d mem).tree (s.write d mem).loc id = x := by
  have hl := r.joint.row id x hx
  rw [← r.loc] at hl
  obtain ⟨lvl, hw⟩ := r.inv.wf
  obtain ⟨p, hp, b1, b2⟩ := r.inv.val _ x hl
  obtain ⟨i, q, d1, d2, d3, d4, _⟩ := hw.leafAt b1
  subst d1
  obtain ⟨y, b, h1, h2⟩ := read_walk (H := H) (t := { s.tree with mem := mem }) (l := s.loc id) (r.verifies hx mem)
  have e1 : leafOf (s.write d mem).tree (s.write d mem).loc id = y := by
    show leafOf { s.tree with mem := mem } s.loc id = y
    simp only [leafOf, h1]
  have e2 : pathOf H (s.write d mem).tree (s.write d mem).loc id = b := by
    show pathOf H { s.tree with mem := mem } s.loc id = b
    simp only [pathOf, h2]
  rw [e1, e2]
  rintro rfl
  obtain ⟨b', c1, c2⟩ := verify_spec (H := H) (t := { s.tree with mem := mem }) hw b1 y
  rw [verify_eq, h1, Out.bind_ok, if_pos rfl, h2] at c1
  cases c1
  obtain ⟨f1, f2⟩ := c2.mp rfl
  have := untouched (H := H) (mem' := mem) hw hroot s.tree.height d2 (by omega)
    (fun m r' hm _ => by
      rcases r.inv.clean m r' hm with h2 | ⟨l', _, _, e, _⟩
      · exact h2
      · exact absurd e (r.joint.settled hset l'))
    f2 (fun m hu => hcol m ⟨_, p, b1, rfl, hu⟩)
  unfold hashesIn at this
  have := List.map_inj_left.mp this i (by simpa using d4)
  rw [f1, ← b2]; exact this

/-- After any such writing, as long as there is a leaf for every row, a call gets to the database. -/
theorem Rel.consult {w : Want D} {s : St D} {T : Table Bytes} (r : Rel F H zero w s T) (d : D) (mem : HPtr → Bytes)
    (hids : ∀ id, (F.leaves w.db).find id = none → (F.leaves d).find id = none) (c : Call L R) :
    OnTree.consult F H (s.write d mem) c =
      F.call (pathOf H (s.write d mem).tree (s.write d mem).loc) (seen F (s.write d mem)) c := by
  unfold OnTree.consult
  rw [sound_ok, Out.bind_ok]
  intro p hp x
  have : (F.leaves w.db).find p.1 ≠ none := fun h => by
    have := hids p.1 h
    rw [show (F.leaves d).find p.1 = some p.2 from OMap.mem_list.mp hp] at this
    cases this
  obtain ⟨v, hv⟩ := Option.ne_none_iff_exists'.mp this
  exact r.verifies hv mem x

/-- What holds of a new database and is kept by its calls holds of it throughout. -/
theorem Want.Steps.keep {I : D → Prop} {ok : Call L R → Prop}
    (hI : ∀ d c d' a, I d → ok c → F.call (fun _ => true) d c = .ok (d', a) → I d') {w w' : Want D} {es : List (Ev L R)} {as : List (Ans A)}
    (h : Want.Steps F w es w' as) (hok : ∀ c fresh temp, Ev.call c fresh temp ∈ es → ok c) : I w.db → I w'.db := by
  induction h with
  | nil w => exact id
  | cons w w' w'' e es a as h hs ih =>
    intro h0
    refine ih (fun c fresh temp hc => hok c fresh temp (List.mem_cons_of_mem _ hc)) ?_
    cases h with
    | call c fresh temp d a hset hfree hdist htemp hc => exact hI _ c _ _ h0 (hok c fresh temp List.mem_cons_self) hc
    | other => exact h0
    | check => exact h0

end Svr.OnTree
