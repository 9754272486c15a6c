import Verif.Wire.E2E

/-! # Facts about the wire format of what enclaves send each other -/

namespace Svr.Wire

open Svr.Raft Svr.Raft.Node
open Svr.Minimums (Limits)

variable {ord : Limits → List (Bytes × Bytes)} {utf8 : Bytes → Bool}

theorem foldlM_fBool {α : Type} {st : α → Nat × Raw → Option α} {f : Nat} {b : Bool} {a a' : α} (h : b = true → st a (f, .num 1) = some a')
    (h0 : b = false → a = a') : (fBool f b).foldlM st a = some a' := by
  cases b
  · simp [fBool, h0]
  · simp [fBool, h]

theorem foldl_fU32 {α : Type} {st : α → Nat × Raw → α} {f : Nat} {n : UInt32} {a a' : α} (h : n ≠ 0 → st a (f, .num n.toNat) = a')
    (h0 : n = 0 → a = a') : (fU32 f n).foldl st a = a' := by
  refine foldl_fNum (fun hn => h fun e => hn (by simp [e])) fun hn => h0 ?_
  exact UInt32.toNat_inj.1 (by simpa using hn)

theorem foldl_fF64 {α : Type} {st : α → Nat × Raw → α} {f : Nat} {n : UInt64} {a a' : α} (h : n ≠ 0 → st a (f, .fix64 (le 8 n.toNat)) = a')
    (h0 : n = 0 → a = a') : (fF64 f n).foldl st a = a' := by
  unfold fF64
  split
  · rename_i hn; simp [h0 hn]
  · rename_i hn; simp [h hn]

/-- A message in a field, if it is set. -/
theorem foldlM_fOpt {α β : Type} {st : α → Nat × Raw → Option α} {f : Nat} {F : β → Fields} {o : Option β} {a a' : α}
    (h : ∀ x, o = some x → st a (f, .len (enc (F x))) = some a') (h0 : o = none → a = a') : (fOpt f F o).foldlM st a = some a' := by
  cases o with
  | none => simp [fOpt, h0]
  | some x => simp [fOpt, h]

theorem sound_opt {β : Type} {f : Nat} {F : β → Fields} {o : Option β} (h0 : 0 < f := by decide) (h1 : f < 2 ^ 29 := by decide) :
    ∀ x ∈ fOpt f F o, Sound x := by
  intro x hx
  cases o with
  | none => cases hx
  | some y => obtain rfl := List.mem_singleton.1 hx; exact ⟨h0, h1, trivial⟩

theorem sound_one {f : Nat} {b : Bytes} (h0 : 0 < f := by decide) (h1 : f < 2 ^ 29 := by decide) : ∀ x ∈ [(f, Raw.len b)], Sound x :=
  sound_len h0 h1 sound_nil

theorem sound_map {β : Type} {f : Nat} {F : β → Bytes} {l : List β} (h0 : 0 < f := by decide) (h1 : f < 2 ^ 29 := by decide) :
    ∀ x ∈ l.map (fun y => (f, Raw.len (F y))), Sound x := by
  intro x hx
  obtain ⟨y, _, rfl⟩ := List.mem_map.1 hx
  exact ⟨h0, h1, trivial⟩

theorem opt_le {β : Type} {f : Nat} {F : β → Fields} {o : Option β} {y : β} (ho : o = some y) {fs : Fields} (h : ∀ x ∈ fOpt f F o, x ∈ fs) :
    (enc (F y)).length ≤ (enc fs).length := by
  subst ho
  exact len_le_enc (f := f) (h _ (by simp [fOpt]))

/-! ## Locations and configuration -/

theorem loc_sound {l : Loc} (h : l.Ok) : ∀ x ∈ locF l, Sound x :=
  sound_append (sound_append (sound_num (hn := h.1)) (sound_num (hn := h.2))) sound_bytes

theorem loc_fold (l : Loc) : (locF l).foldl locStep {} = l := by
  obtain ⟨t, i, hs⟩ := l
  rw [locF, List.foldl_append, List.foldl_append, foldl_fNum (f := 1) (a' := ({ term := t } : Loc)) (fun _ => rfl) (fun h => by simp_all),
    foldl_fNum (f := 2) (a' := ({ term := t, idx := i } : Loc)) (fun _ => rfl) (fun h => by simp_all)]
  exact foldl_fBytes (fun _ => rfl) (fun h => by simp_all)

theorem conf_sound {c : GroupConf} (h : c.db < 2 ^ 31) : ∀ x ∈ confF c, Sound x :=
  sound_append (sound_append (sound_append (sound_append (sound_append (sound_append sound_f64 sound_u32) sound_u32) sound_u32)
    (sound_num (hn := Nat.lt_trans h (by decide)))) sound_u32) sound_bool

theorem conf_fold {c : GroupConf} (h : c.db < 2 ^ 31) : (confF c).foldl confStep {} = c := by
  obtain ⟨g, a, b, s, d, t, m⟩ := c
  simp only at h
  have hd : d % 2 ^ 32 = d := Nat.mod_eq_of_lt (by omega)
  simp only [confF, List.foldl_append]
  rw [foldl_fF64 (a' := ({ gid := g } : GroupConf)) (fun _ => by simp [confStep, unle_le8]) (fun h => by simp_all),
    foldl_fU32 (f := 2) (a' := ({ gid := g, minV := a } : GroupConf)) (fun _ => by simp [confStep]) (fun h => by simp_all),
    foldl_fU32 (f := 3) (a' := ({ gid := g, minV := a, maxV := b } : GroupConf)) (fun _ => by simp [confStep]) (fun h => by simp_all),
    foldl_fU32 (f := 4) (a' := ({ gid := g, minV := a, maxV := b, super := s } : GroupConf)) (fun _ => by simp [confStep]) (fun h => by simp_all),
    foldl_fNum (a' := ({ gid := g, minV := a, maxV := b, super := s, db := d } : GroupConf)) (fun _ => by simp only [confStep, hd]) (fun h => by simp_all),
    foldl_fU32 (f := 6) (a' := ({ gid := g, minV := a, maxV := b, super := s, db := d, timeout := t } : GroupConf)) (fun _ => by simp [confStep]) (fun h => by simp_all)]
  exact foldl_fBool (fun h => by simp_all [confStep]) (fun h => by simp_all)

/-! ## Maps -/

theorem lim_entry {m : Limits} {p : Bytes × Bytes} (hu : utf8 p.1 = true) (hl : (enc [(1, .len p.1), (2, .len p.2)]).length ≤ maxLen) :
    limStep utf8 m (limF p) = some (m.insert p.1 p.2) := by
  have hs : split true (enc [(1, .len p.1), (2, .len p.2)]) = some [(1, .len p.1), (2, .len p.2)] :=
    split_sound (sound_len (by decide) (by decide) (sound_len (by decide) (by decide) sound_nil)) hl
  simp only [limF, limStep, hs, Option.bind_some]
  have h1 : getLen 1 [] [(1, Raw.len p.1), (2, Raw.len p.2)] = p.1 := by simp [getLen]
  have h2 : getLen 2 [] [(1, Raw.len p.1), (2, Raw.len p.2)] = p.2 := by simp [getLen]
  rw [h1, h2, if_pos hu]

theorem lim_list : ∀ (l : List (Bytes × Bytes)) (m : Limits), (∀ p ∈ l, utf8 p.1 = true) →
    (∀ p ∈ l, (enc [(1, .len p.1), (2, .len p.2)]).length ≤ maxLen) →
    (l.map limF).foldlM (limStep utf8) m = some (l.foldl (fun m p => m.insert p.1 p.2) m)
  | [], m, _, _ => by simp
  | p :: l, m, hu, hl => by
    rw [List.map_cons, List.foldlM_cons, lim_entry (hu p List.mem_cons_self) (hl p List.mem_cons_self)]
    exact lim_list l _ (fun q hq => hu q (List.mem_cons_of_mem _ hq)) fun q hq => hl q (List.mem_cons_of_mem _ hq)

/-- Entries with different keys, each inserted: what is then found. -/
theorem find_inserts : ∀ (l : List (Bytes × Bytes)) (m : Limits) (k : Bytes), (l.map (·.1)).Nodup →
    (l.foldl (fun m p => m.insert p.1 p.2) m).find k = match l.find? (fun p => p.1 = k) with | some p => some p.2 | none => m.find k
  | [], m, k, _ => by simp
  | p :: l, m, k, h => by
    rw [List.map_cons, List.nodup_cons] at h
    rw [List.foldl_cons, find_inserts l _ k h.2, OMap.find_insert]
    by_cases hk : p.1 = k
    · have : l.find? (fun q => q.1 = k) = none := List.find?_eq_none.2 fun q hq he => h.1 (List.mem_map.2 ⟨q, hq, by simp_all⟩)
      simp [this, hk]
    · simp [hk]

theorem inserts_perm {l : List (Bytes × Bytes)} {m : Limits} (h : l.Perm m.list) : l.foldl (fun m p => m.insert p.1 p.2) OMap.empty = m := by
  have hm : (m.list.map (·.1)).Nodup := by
    have := m.sorted
    exact (List.pairwise_map.2 (this.imp fun hab => ne_of_lt hab))
  refine OMap.ext_find fun k => ?_
  rw [find_inserts l _ k ((h.map (·.1)).nodup_iff.2 hm)]
  cases hf : l.find? (fun p => p.1 = k) with
  | some p =>
    have h1 : p.1 = k := by simpa using List.find?_some hf
    have h2 := h.mem_iff.1 (List.mem_of_find?_eq_some hf)
    obtain ⟨a, b⟩ := p
    simp only at h1
    subst h1
    exact (OMap.mem_list.1 h2).symm
  | none =>
    simp only [OMap.find_empty]
    cases hk : m.find k with
    | none => rfl
    | some v =>
      have := h.mem_iff.2 (OMap.mem_list.2 hk)
      exact absurd (List.find?_eq_none.1 hf _ this) (by simp)

theorem limits_sound (m : Limits) : ∀ x ∈ limitsF ord m, Sound x := by
  intro x hx
  obtain ⟨p, _, rfl⟩ := List.mem_map.1 hx
  exact ⟨by simp [limF], by simp [limF], trivial⟩

theorem limits_fold (ho : ∀ m : Limits, (ord m).Perm m.list) {m : Limits} (hu : ∀ p ∈ m.list, utf8 p.1 = true)
    (hl : (enc (limitsF ord m)).length ≤ maxLen) : (limitsF ord m).foldlM (limStep utf8) OMap.empty = some m := by
  rw [limitsF, lim_list, inserts_perm (ho m)]
  · exact fun p hp => hu p ((ho m).mem_iff.1 hp)
  · exact fun p hp => Nat.le_trans (len_le_enc (f := 1) (List.mem_map.2 ⟨p, hp, rfl⟩)) hl

/-! ## State that is pushed -/

theorem push_entries : ∀ (es : List Entry) (x : PushW), (∀ e ∈ es, e.term < 2 ^ 64) → (∀ e ∈ es, (encEntry e).length ≤ maxLen) →
    (es.map fun e => (4, Raw.len (enc (entryF e)))).foldlM (pushStep utf8) x = some { x with entries := x.entries ++ es }
  | [], x, _, _ => by simp
  | e :: es, x, ht, hl => by
    have hs := split_entry (lim := true) (fun _ => ht e List.mem_cons_self) (fun _ => hl e List.mem_cons_self)
    have hf := entry_fold (lim := true) (fun _ => hl e List.mem_cons_self)
    rw [encEntry] at hs
    have := push_entries es { x with entries := x.entries ++ [e] } (fun d hd => ht d (List.mem_cons_of_mem _ hd)) fun d hd => hl d (List.mem_cons_of_mem _ hd)
    rw [List.map_cons, List.foldlM_cons]
    simp [pushStep, hs, hf, this]

theorem push_rows : ∀ (rs : List Bytes) (x : PushW), (rs.map fun r => (6, Raw.len r)).foldlM (pushStep utf8) x = some { x with rows := x.rows ++ rs }
  | [], x => by simp
  | r :: rs, x => by
    have := push_rows rs { x with rows := x.rows ++ [r] }
    rw [List.map_cons, List.foldlM_cons]
    simp [pushStep, this]

theorem push_sound {p : PushW} (h : p.Ok utf8) : ∀ x ∈ pushF ord p, Sound x :=
  sound_append (sound_append (sound_append (sound_append (sound_append (sound_append (sound_append (sound_num (hn := h.1)) (sound_num (hn := h.2.1)))
    (sound_num (hn := h.2.2.1))) (sound_map (F := fun e => enc (entryF e)))) sound_bool) (sound_map (F := fun r => r))) sound_opt) sound_opt

theorem push_fold (ho : ∀ m : Limits, (ord m).Perm m.list) {p : PushW} (h : p.Ok utf8) (hl : (enc (pushF ord p)).length ≤ maxLen) :
    (pushF ord p).foldlM (pushStep utf8) {} = some p := by
  obtain ⟨i, s, f, es, e, rs, g, m⟩ := p
  obtain ⟨-, -, -, h4, h5⟩ := h
  simp only at h4 h5
  have he : ∀ e ∈ es, (encEntry e).length ≤ maxLen := fun e he => Nat.le_trans (len_le_enc (f := 4) (by
    simp only [pushF, List.mem_append]
    exact .inl (.inl (.inl (.inl (.inr (List.mem_map.2 ⟨e, he, rfl⟩)))))) ) hl
  have hg : ∀ x, g = some x → (encGroup x).length ≤ maxLen := fun x hx => Nat.le_trans (opt_le (f := 7) (F := groupF) hx fun y hy => by
    simp only [pushF, List.mem_append]
    exact .inl (.inr hy)) hl
  have hm : ∀ x, m = some x → (enc (limitsF ord x)).length ≤ maxLen := fun x hx => Nat.le_trans (opt_le (f := 8) (F := limitsF ord) hx fun y hy => by
    simp only [pushF, List.mem_append]
    exact .inr hy) hl
  simp only [pushF, List.foldlM_append]
  rw [foldlM_fNum (a' := ({ id := i } : PushW)) (fun _ => rfl) (fun h => by simp_all)]
  simp only [Option.bind_eq_bind, Option.bind_some]
  rw [foldlM_fNum (a' := ({ id := i, seq := s } : PushW)) (fun _ => rfl) (fun h => by simp_all)]
  simp only [Option.bind_some]
  rw [foldlM_fNum (a' := ({ id := i, seq := s, first := f } : PushW)) (fun _ => rfl) (fun h => by simp_all)]
  simp only [Option.bind_some]
  rw [push_entries es _ h4 he]
  simp only [Option.bind_some, List.nil_append]
  rw [foldlM_fBool (a' := ({ id := i, seq := s, first := f, entries := es, toEnd := e } : PushW)) (fun h => by simp_all [pushStep]) (fun h => by simp_all)]
  simp only [Option.bind_some]
  rw [push_rows rs]
  simp only [Option.bind_some, List.nil_append]
  rw [foldlM_fOpt (a' := ({ id := i, seq := s, first := f, entries := es, toEnd := e, rows := rs, mem := g } : PushW)) (fun x hx => by
    have h1 := split_group (lim := true) fun _ => hg x hx
    rw [encGroup] at h1
    simp [pushStep, h1, group_fold (lim := true) x [] (fun _ => hg x hx), hx]) (fun h => by simp_all)]
  simp only [Option.bind_some]
  refine foldlM_fOpt (fun x hx => ?_) fun h => by simp_all
  simp [pushStep, split_sound (limits_sound x) (hm x hx), limits_fold ho (h5 x hx) (hm x hx), hx]

theorem info_sound (r : RaftInfo) : ∀ x ∈ infoF ord r, Sound x := sound_append (sound_append sound_opt sound_opt) sound_opt

theorem info_fold (ho : ∀ m : Limits, (ord m).Perm m.list) {r : RaftInfo} (h : ∀ c, r.conf = some c → c.db < 2 ^ 31) (hu : LimOk utf8 r.lim)
    (hl : (enc (infoF ord r)).length ≤ maxLen) : (infoF ord r).foldlM (infoStep utf8) {} = some r := by
  obtain ⟨c, g, m⟩ := r
  simp only at h hu
  have hc : ∀ x, c = some x → (enc (confF x)).length ≤ maxLen := fun x hx => Nat.le_trans (opt_le (f := 1) (F := confF) hx fun y hy => by
    simp only [infoF, List.mem_append]
    exact .inl (.inl hy)) hl
  have hg : ∀ x, g = some x → (encGroup x).length ≤ maxLen := fun x hx => Nat.le_trans (opt_le (f := 2) (F := groupF) hx fun y hy => by
    simp only [infoF, List.mem_append]
    exact .inl (.inr hy)) hl
  have hm : ∀ x, m = some x → (enc (limitsF ord x)).length ≤ maxLen := fun x hx => Nat.le_trans (opt_le (f := 3) (F := limitsF ord) hx fun y hy => by
    simp only [infoF, List.mem_append]
    exact .inr hy) hl
  simp only [infoF, List.foldlM_append]
  rw [foldlM_fOpt (a' := ({ conf := c } : RaftInfo)) (fun x hx => by
    simp [infoStep, split_sound (conf_sound (h x hx)) (hc x hx), conf_fold (h x hx), hx]) (fun h => by simp_all)]
  simp only [Option.bind_eq_bind, Option.bind_some]
  rw [foldlM_fOpt (a' := ({ conf := c, group := g } : RaftInfo)) (fun x hx => by
    have h1 := split_group (lim := true) fun _ => hg x hx
    rw [encGroup] at h1
    simp [infoStep, h1, group_fold (lim := true) x [] (fun _ => hg x hx), hx]) (fun h => by simp_all)]
  simp only [Option.bind_some]
  refine foldlM_fOpt (fun x hx => ?_) fun h => by simp_all
  simp [infoStep, split_sound (limits_sound x) (hm x hx), limits_fold ho (hu x hx) (hm x hx), hx]

/-! ## Transactions -/

theorem sound_tag {f n : Nat} (h0 : 0 < f := by decide) (h1 : f < 2 ^ 29 := by decide) (hn : n < 2 ^ 64) : ∀ x ∈ [(f, Raw.num n)], Sound x := by
  intro x hx
  obtain rfl := List.mem_singleton.1 hx
  exact ⟨h0, h1, hn⟩

theorem asked_sound {i : Nat} (hi : i < 2 ^ 64) {q : Asked} (h : q.Ok utf8) : ∀ x ∈ fNum 1 i ++ askedF ord q, Sound x := by
  refine sound_append (sound_num (hn := hi)) ?_
  cases q with
  | unset => exact sound_nil
  | clock n => exact sound_tag (hn := h)
  | replicate | push | write => exact sound_one
  | _ => exact sound_tag (hn := by decide)

theorem asked_fold (ho : ∀ m : Limits, (ord m).Perm m.list) {i : Nat} {q : Asked} (h : q.Ok utf8)
    (hl : (enc (fNum 1 i ++ askedF ord q)).length ≤ maxLen) : (fNum 1 i ++ askedF ord q).foldlM (askedStep utf8) (0, .unset) = some (i, q) := by
  rw [List.foldlM_append, foldlM_fNum (a' := (i, Asked.unset)) (fun _ => rfl) (fun h => by simp_all)]
  simp only [Option.bind_eq_bind, Option.bind_some]
  have hle : ∀ {f : Nat} {b : Bytes}, (f, Raw.len b) ∈ askedF ord q → b.length ≤ maxLen :=
    fun hb => Nat.le_trans (len_le_enc (List.mem_append.2 (.inr hb))) hl
  cases q with
  | unset => rfl
  | replicate g r =>
    have h1 : split true (enc (fNum 1 g ++ fNum 2 r)) = some (fNum 1 g ++ fNum 2 r) :=
      split_sound (sound_append (sound_num (hn := h.1)) (sound_num (hn := h.2))) (hle (f := 4) (by simp [askedF]))
    have h2 : (fNum 1 g ++ fNum 2 r).foldl repStep (0, 0) = (g, r) := by
      rw [List.foldl_append, foldl_fNum (f := 1) (a' := (g, 0)) (fun _ => rfl) (fun h => by simp_all)]
      exact foldl_fNum (fun _ => rfl) (fun h => by simp_all)
    simp only [askedF, List.foldlM_cons, List.foldlM_nil, askedStep, h1, h2, Option.map_some]
    rfl
  | push p =>
    have hp := hle (f := 5) (b := enc (pushF ord p)) (by simp [askedF])
    simp only [askedF, List.foldlM_cons, List.foldlM_nil, askedStep, split_sound (push_sound h) hp, push_fold ho h hp, Option.map_some, Option.bind_some]
    rfl
  | _ => rfl

theorem told_sound {i : Nat} (hi : i < 2 ^ 64) {r : Told} (h : r.Ok utf8) : ∀ x ∈ fNum 1 i ++ toldF ord r, Sound x := by
  refine sound_append (sound_num (hn := hi)) ?_
  cases r with
  | unset => exact sound_nil
  | status n => exact sound_tag (hn := Nat.lt_trans h (by decide))
  | _ => exact sound_one

theorem told_fold (ho : ∀ m : Limits, (ord m).Perm m.list) {i : Nat} {r : Told} (h : r.Ok utf8)
    (hl : (enc (fNum 1 i ++ toldF ord r)).length ≤ maxLen) : (fNum 1 i ++ toldF ord r).foldlM (toldStep utf8) (0, .unset) = some (i, r) := by
  rw [List.foldlM_append, foldlM_fNum (a' := (i, Told.unset)) (fun _ => rfl) (fun h => by simp_all)]
  simp only [Option.bind_eq_bind, Option.bind_some]
  have hle : ∀ {f : Nat} {b : Bytes}, (f, Raw.len b) ∈ toldF ord r → b.length ≤ maxLen :=
    fun hb => Nat.le_trans (len_le_enc (List.mem_append.2 (.inr hb))) hl
  cases r with
  | unset => rfl
  | status n =>
    have hn : n % 2 ^ 32 = n := Nat.mod_eq_of_lt (Nat.lt_trans h (by decide))
    simp only [toldF, List.foldlM_cons, List.foldlM_nil, toldStep, hn]
    rfl
  | getRaft x =>
    have hp := hle (f := 3) (b := enc (infoF ord x)) (by simp [toldF])
    simp only [toldF, List.foldlM_cons, List.foldlM_nil, toldStep, split_sound (info_sound x) hp, info_fold ho h.1 h.2 hp, Option.map_some, Option.bind_some]
    rfl
  | membership l =>
    have hp := hle (f := 4) (b := enc (locF l)) (by simp [toldF])
    simp only [toldF, List.foldlM_cons, List.foldlM_nil, toldStep, split_sound (loc_sound h) hp, loc_fold, Option.map_some]
    rfl
  | voting l =>
    have hp := hle (f := 5) (b := enc (locF l)) (by simp [toldF])
    simp only [toldF, List.foldlM_cons, List.foldlM_nil, toldStep, split_sound (loc_sound h) hp, loc_fold, Option.map_some]
    rfl
  | write l =>
    have hp := hle (f := 6) (b := enc (locF l)) (by simp [toldF])
    simp only [toldF, List.foldlM_cons, List.foldlM_nil, toldStep, split_sound (loc_sound h) hp, loc_fold, Option.map_some]
    rfl

/-! ## Messages -/

theorem att_fold (v d : Bytes) : (fBytes 1 v ++ fBytes 2 d).foldl attStep ([], []) = (v, d) := by
  rw [List.foldl_append, foldl_fBytes (f := 1) (a' := (v, [])) (fun _ => rfl) (fun h => by simp_all)]
  exact foldl_fBytes (fun _ => rfl) (fun h => by simp_all)

theorem decConn_encConn {v d hs : Bytes} (hl : (encConn (enc (fBytes 1 v ++ fBytes 2 d)) hs).length ≤ maxLen) :
    decConn (encConn (enc (fBytes 1 v ++ fBytes 2 d)) hs) = some ((v, d), hs) := by
  have h0 : split true (encConn (enc (fBytes 1 v ++ fBytes 2 d)) hs) = some ([(1, .len (enc (fBytes 1 v ++ fBytes 2 d)))] ++ fBytes 2 hs) :=
    split_sound (sound_append sound_one sound_bytes) hl
  have h1 : split true (enc (fBytes 1 v ++ fBytes 2 d)) = some (fBytes 1 v ++ fBytes 2 d) :=
    split_sound (sound_append sound_bytes sound_bytes) (Nat.le_trans (len_le_enc (f := 1) (List.mem_append.2 (.inl List.mem_cons_self))) hl)
  rw [decConn, h0, Option.bind_some, List.foldlM_append, List.foldlM_cons]
  simp only [connStep, h1, Option.map_some, att_fold]
  exact foldlM_fBytes (fun _ => rfl) (fun h => by simp_all)

/-- The numbers of a message fit their fields, and its keys are text. -/
def E2E.Ok (utf8 : Bytes → Bool) : E2E → Prop
  | .raft m => m.group < 2 ^ 64 ∧ m.term < 2 ^ 64 ∧ Narrow true m.body
  | .request i q => i < 2 ^ 64 ∧ q.Ok utf8
  | .response i r => i < 2 ^ 64 ∧ r.Ok utf8
  | _ => True

theorem e2e_sound (m : E2E) : ∀ x ∈ e2eF ord m, Sound x := by
  cases m with
  | unset => exact sound_nil
  | connected => exact sound_tag (hn := by decide)
  | _ => exact sound_one

theorem decE2E_encE2E (ho : ∀ m : Limits, (ord m).Perm m.list) {m : E2E} (h : m.Ok utf8) (hl : (encE2E ord m).length ≤ maxLen) :
    decE2E utf8 (encE2E ord m) = some m := by
  rw [decE2E, encE2E, split_sound (e2e_sound m) hl, Option.bind_some]
  have hle : ∀ {f : Nat} {b : Bytes}, (f, Raw.len b) ∈ e2eF ord m → b.length ≤ maxLen := fun hb => Nat.le_trans (len_le_enc hb) hl
  cases m with
  | unset => rfl
  | connected => rfl
  | raft m =>
    have hp := hle (f := 2) (b := encMsg m) (by simp [e2eF, encMsg])
    have h1 := split_enc (msgF_fits (lim := true) (fun _ => h.1) (fun _ => h.2.1) fun _ => hp)
    have h2 := decMsg_encMsg (lim := true) (m := m) (fun _ => h.1) (fun _ => h.2.1) h.2.2 fun _ => hp
    rw [decMsg, encMsg, h1, Option.bind_some] at h2
    simp only [e2eF, List.foldlM_cons, List.foldlM_nil, e2eStep, h1, h2, Option.map_some, Option.bind_some]
    rfl
  | update v d =>
    have h1 : split true (enc (fBytes 1 v ++ fBytes 2 d)) = some (fBytes 1 v ++ fBytes 2 d) :=
      split_sound (sound_append sound_bytes sound_bytes) (hle (f := 3) (by simp [e2eF]))
    have h2 := att_fold v d
    simp only [e2eF, List.foldlM_cons, List.foldlM_nil, e2eStep, h1, h2, Option.map_some]
    rfl
  | request i q =>
    have hp := hle (f := 4) (b := enc (fNum 1 i ++ askedF ord q)) (by simp [e2eF])
    simp only [e2eF, List.foldlM_cons, List.foldlM_nil, e2eStep, split_sound (asked_sound h.1 h.2) hp, asked_fold ho h.2 hp, Option.map_some, Option.bind_some]
    rfl
  | response i r =>
    have hp := hle (f := 5) (b := enc (fNum 1 i ++ toldF ord r)) (by simp [e2eF])
    simp only [e2eF, List.foldlM_cons, List.foldlM_nil, e2eStep, split_sound (told_sound h.1 h.2) hp, told_fold ho h.2 hp, Option.map_some, Option.bind_some]
    rfl

end Svr.Wire
