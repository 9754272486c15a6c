import Verif.Queue

/-!
# Invariants of the queue between threads
-/

namespace Svr.Queue
variable {T : Type}

def isPop : Pc T → Bool
  | .pop => true
  | _ => false
def isPushNote : Pc T → Bool
  | .pushNote => true
  | _ => false

/-- No notification is lost: a sleeping thread that could go on is about to be notified. -/
structure Awake (max : Nat) (s : St T) : Prop where
  room : s.q.d.length ≤ max
  pop : Pc.popWait ∈ s.threads → s.q.d.length ≤ s.threads.countP isPop + s.threads.countP isPushNote
  push : ∀ v, Pc.pushWait v ∈ s.threads → s.q.d.length < max → ∃ u, Pc.popNote u ∈ s.threads
  flush : ∀ w n, Pc.flushWait w ∈ s.threads → s.q.popped = some n → w ≤ n → ∃ u, Pc.popNote u ∈ s.threads

theorem mem_mid {p : Pc T} {a b : List (Pc T)} {x : Pc T} (hx : x ≠ p) (h : p ∈ a ++ x :: b) (y : Pc T) : p ∈ a ++ y :: b := by
  simp only [List.mem_append, List.mem_cons] at h ⊢
  rcases h with h | h | h
  · exact .inl h
  · exact absurd h.symm hx
  · exact .inr (.inr h)

theorem locked_cases {max : Nat} {q q' : Q T} {p p' : Pc T} (h : locked max q p = some (.ok (q', p'))) :
    (∃ v, p = .push v ∧ ((q.d.length < max ∧ q' = { q with d := q.d ++ [v] } ∧ p' = .pushNote) ∨
      (max ≤ q.d.length ∧ q' = q ∧ p' = .pushWait v))) ∨
    (p = .pop ∧ ((q.d = [] ∧ q' = q ∧ p' = .popWait) ∨
      ∃ v r n, q.d = v :: r ∧ q.popped = some n ∧ q' = ⟨r, some (n + 1)⟩ ∧ p' = .popNote v)) ∨
    (∃ n w late, q.popped = some n ∧ q' = q ∧ ((p = .flush ∧ w = n + UInt64.ofNat q.d.length ∧ late = false) ∨ p = .flushBack w late) ∧
      p' = if n ≥ w then .out (.flushed true) else if late then .out (.flushed false) else .flushWait w) := by
  cases p with
  | push v =>
    refine .inl ⟨v, rfl, ?_⟩
    simp only [locked, lockPush, Option.some.injEq, Out.ok.injEq] at h
    by_cases hr : q.d.length < max
    · rw [if_pos hr] at h
      cases h
      exact .inl ⟨hr, rfl, rfl⟩
    · rw [if_neg hr] at h
      cases h
      exact .inr ⟨Nat.le_of_not_lt hr, rfl, rfl⟩
  | pop =>
    refine .inr (.inl ⟨rfl, ?_⟩)
    simp only [locked, lockPop, Option.some.injEq] at h
    cases hd : q.d with
    | nil =>
      rw [hd] at h
      cases h
      exact .inl ⟨rfl, rfl, rfl⟩
    | cons v r =>
      rw [hd] at h
      cases hp : q.popped with
      | none => rw [hp] at h; cases h
      | some n =>
        rw [hp] at h
        cases h
        exact .inr ⟨v, r, n, rfl, rfl, rfl, rfl⟩
  | flush =>
    simp only [locked, lockFlush, flushTest, Option.some.injEq] at h
    cases hp : q.popped with
    | none => rw [hp] at h; cases h
    | some n =>
      rw [hp] at h
      cases h
      exact .inr (.inr ⟨n, _, false, rfl, rfl, .inl ⟨rfl, rfl, rfl⟩, rfl⟩)
  | flushBack w late =>
    simp only [locked, flushTest, Option.some.injEq] at h
    cases hp : q.popped with
    | none => rw [hp] at h; cases h
    | some n =>
      rw [hp] at h
      cases h
      exact .inr (.inr ⟨n, w, late, rfl, rfl, .inr rfl, rfl⟩)
  | _ => cases h

theorem mem_ext {p x y : Pc T} {a b : List (Pc T)} (h : p ∈ a ++ y :: b) (hy : p ≠ y) : p ∈ a ++ x :: b := by
  simp only [List.mem_append, List.mem_cons] at h ⊢
  rcases h with h | h | h
  · exact .inl h
  · exact absurd h hy
  · exact .inr (.inr h)

theorem wake_mem {p : Pc T} {l : List (Pc T)} (h : p ∈ l.map wakeNotFull) (h1 : ∀ v, p ≠ .push v) (h2 : ∀ w b, p ≠ .flushBack w b) :
    p ∈ l ∧ (∀ v, p ≠ .pushWait v) ∧ ∀ w, p ≠ .flushWait w := by
  obtain ⟨x, hx, e⟩ := List.mem_map.mp h
  cases x <;> simp only [wakeNotFull] at e <;> subst e <;>
    first
    | exact absurd rfl (h1 _)
    | exact absurd rfl (h2 _ _)
    | exact ⟨hx, by rintro _ ⟨⟩, by rintro _ ⟨⟩⟩

theorem wake_count {f : Pc T → Bool} (hf : ∀ p, f (wakeNotFull p) = f p) (l : List (Pc T)) :
    (l.map wakeNotFull).countP f = l.countP f := by
  rw [List.countP_map]
  congr 1
  funext p
  exact hf p

theorem isPop_wake (p : Pc T) : isPop (wakeNotFull p) = isPop p := by cases p <;> rfl
theorem isPushNote_wake (p : Pc T) : isPushNote (wakeNotFull p) = isPushNote p := by cases p <;> rfl

theorem Awake.run {max : Nat} {s s' : St T} (i : Awake max s) (h : Run max s (.ok s')) : Awake max s' := by
  generalize ho : Out.ok s' = o at h
  cases h with
  | bad h hl => cases ho
  | @lock a b p p' q' h hl =>
    cases ho
    have ipop := i.pop
    have ipush := i.push
    have iflush := i.flush
    rw [h] at ipop ipush iflush
    simp only [List.countP_append, List.countP_cons] at ipop
    have note : ∀ {P : Prop}, (P → ∃ u, Pc.popNote u ∈ a ++ p :: b) → (∀ u, p ≠ .popNote u) →
        P → ∃ u, Pc.popNote u ∈ a ++ p' :: b := by
      intro P hP hne hp
      obtain ⟨u, hu⟩ := hP hp
      exact ⟨u, mem_mid (hne u) hu _⟩
    rcases locked_cases hl with ⟨v, rfl, ⟨hr, rfl, rfl⟩ | ⟨hr, rfl, rfl⟩⟩ | ⟨rfl, ⟨hd, rfl, rfl⟩ | ⟨v, r, n, hd, hp, rfl, rfl⟩⟩ |
        ⟨n, w, late, hp, rfl, hpc, rfl⟩
    · refine ⟨by simp only [List.length_append, List.length_singleton]; omega, ?_, ?_, ?_⟩
      · intro hm
        have := ipop (mem_ext hm (by rintro ⟨⟩))
        simp only [isPop, isPushNote, List.countP_append, List.countP_cons, List.length_append, List.length_singleton,
          if_true, if_false, Bool.false_eq_true] at this ⊢
        omega
      · intro u hm hl
        refine note (fun _ : True => ipush u (mem_ext hm (by rintro ⟨⟩)) hr) (by rintro _ ⟨⟩) trivial
      · intro w n hm hn hw
        exact note (fun _ : True => iflush w n (mem_ext hm (by rintro ⟨⟩)) hn hw) (by rintro _ ⟨⟩) trivial
    · refine ⟨i.room, ?_, ?_, ?_⟩
      · intro hm
        have := ipop (mem_ext hm (by rintro ⟨⟩))
        simp only [isPop, isPushNote, List.countP_append, List.countP_cons, if_false, Bool.false_eq_true] at this ⊢
        exact this
      · intro u hm hl
        exact absurd hl (Nat.not_lt.mpr hr)
      · intro w n hm hn hw
        exact note (fun _ : True => iflush w n (mem_ext hm (by rintro ⟨⟩)) hn hw) (by rintro _ ⟨⟩) trivial
    · refine ⟨i.room, ?_, ?_, ?_⟩
      · intro hm
        rw [hd]
        exact Nat.zero_le _
      · intro u hm hl
        exact note (fun _ : True => ipush u (mem_ext hm (by rintro ⟨⟩)) hl) (by rintro _ ⟨⟩) trivial
      · intro w n hm hn hw
        exact note (fun _ : True => iflush w n (mem_ext hm (by rintro ⟨⟩)) hn hw) (by rintro _ ⟨⟩) trivial
    · have hroom := i.room
      rw [hd] at hroom ipop
      refine ⟨show r.length ≤ max by simp only [List.length_cons] at hroom; omega, ?_, fun _ _ _ => ⟨v, by simp⟩, fun _ _ _ _ _ => ⟨v, by simp⟩⟩
      intro hm
      have := ipop (mem_ext hm (by rintro ⟨⟩))
      simp only [isPop, isPushNote, List.countP_append, List.countP_cons, List.length_cons,
          if_true, if_false, Bool.false_eq_true] at this ⊢
      omega
    · have hc : ∀ f : Pc T → Bool, (f = isPop ∨ f = isPushNote) → f p = false ∧
          f (if n ≥ w then .out (.flushed true) else if late then .out (.flushed false) else .flushWait w) = false := by
        rintro f (rfl | rfl) <;> refine ⟨?_, ?_⟩
        · rcases hpc with ⟨rfl, -⟩ | rfl <;> rfl
        · split_ifs <;> rfl
        · rcases hpc with ⟨rfl, -⟩ | rfl <;> rfl
        · split_ifs <;> rfl
      have hne : ∀ u, p ≠ .popNote u := by rcases hpc with ⟨rfl, -⟩ | rfl <;> rintro _ ⟨⟩
      have ho : ∀ x : Pc T, (∀ w, x ≠ .flushWait w) → (∀ r, x ≠ .out r) →
          x ≠ (if n ≥ w then .out (.flushed true) else if late then .out (.flushed false) else .flushWait w) := by
        intro x h1 h2
        split_ifs <;> first | exact h2 _ | exact h1 _
      refine ⟨i.room, ?_, ?_, ?_⟩
      · intro hm
        have := ipop (mem_ext hm (ho _ (by rintro _ ⟨⟩) (by rintro _ ⟨⟩)))
        simp only [(hc _ (.inl rfl)).1, (hc _ (.inr rfl)).1] at this
        simp only [List.countP_append, List.countP_cons, (hc _ (.inl rfl)).2, (hc _ (.inr rfl)).2]
        exact this
      · intro u hm hl
        exact note (fun _ : True => ipush u (mem_ext hm (ho _ (by rintro _ ⟨⟩) (by rintro _ ⟨⟩))) hl) hne trivial
      · intro w' n' hm hn hw
        refine note (fun _ : True => iflush w' n' (mem_ext hm ?_) hn hw) hne trivial
        have hn' : s.q.popped = some n' := hn
        rw [hp] at hn'
        cases hn'
        intro e
        split_ifs at e with h1
        cases e
        exact h1 hw
  | @noteNone a b h hn =>
    cases ho
    have ipush := i.push
    have iflush := i.flush
    rw [h] at ipush iflush
    refine ⟨i.room, ?_, ?_, ?_⟩
    · intro hm
      exfalso
      apply hn
      simp only [List.mem_append, List.mem_cons] at hm ⊢
      rcases hm with hm | hm | hm
      · exact .inl hm
      · cases hm
      · exact .inr hm
    · intro u hm hl
      obtain ⟨w, hw⟩ := ipush u (mem_ext hm (by rintro ⟨⟩)) hl
      exact ⟨w, mem_mid (by rintro ⟨⟩) hw _⟩
    · intro w n hm hn hw
      obtain ⟨w, hw⟩ := iflush w n (mem_ext hm (by rintro ⟨⟩)) hn hw
      exact ⟨w, mem_mid (by rintro ⟨⟩) hw _⟩
  | @noteOne a b a' b' h hw =>
    cases ho
    have ipop := i.pop
    have ipush := i.push
    have iflush := i.flush
    rw [h] at ipop ipush iflush
    have hback : ∀ x : Pc T, x ∈ a' ++ .pop :: b' → x ≠ .pop → (∀ r, x ≠ .out r) → x ∈ a ++ .pushNote :: b := by
      intro x hx h1 h2
      have : x ∈ a' ++ .popWait :: b' := mem_ext hx h1
      rw [← hw] at this
      exact mem_ext this (h2 _)
    have hfwd : ∀ u, Pc.popNote u ∈ a ++ .pushNote :: b → Pc.popNote u ∈ a' ++ .pop :: b' := by
      intro u hu
      have : Pc.popNote u ∈ a ++ .out .void :: b := mem_mid (by rintro ⟨⟩) hu _
      rw [hw] at this
      exact mem_mid (by rintro ⟨⟩) this _
    have hsleep : Pc.popWait ∈ a ++ .pushNote :: b := by
      have : Pc.popWait ∈ a ++ .out .void :: b := by rw [hw]; simp
      exact mem_mid (by rintro ⟨⟩) this _
    have hcount : ∀ f : Pc T → Bool, f (.out .void) = false → f .popWait = false →
        a.countP f + b.countP f = a'.countP f + b'.countP f := by
      intro f h1 h2
      have := congrArg (List.countP f) hw
      simpa only [List.countP_append, List.countP_cons, h1, h2, Bool.false_eq_true, if_false, Nat.add_zero] using this
    refine ⟨i.room, ?_, ?_, ?_⟩
    · intro _
      have := ipop hsleep
      have c1 := hcount isPop rfl rfl
      have c2 := hcount isPushNote rfl rfl
      simp only [isPop, isPushNote, List.countP_append, List.countP_cons, List.length_cons,
          if_true, if_false, Bool.false_eq_true] at this ⊢
      omega
    · intro u hm hl
      obtain ⟨w, hw⟩ := ipush u (hback _ hm (by rintro ⟨⟩) (by rintro _ ⟨⟩)) hl
      exact ⟨w, hfwd _ hw⟩
    · intro w n hm hn hw
      obtain ⟨w, hw⟩ := iflush w n (hback _ hm (by rintro ⟨⟩) (by rintro _ ⟨⟩)) hn hw
      exact ⟨w, hfwd _ hw⟩
  | @noteAll a b v h =>
    cases ho
    have ipop := i.pop
    rw [h] at ipop
    have hback : ∀ x : Pc T, x ∈ a.map wakeNotFull ++ .out (.got v) :: b.map wakeNotFull → (∀ v, x ≠ .push v) → (∀ w b, x ≠ .flushBack w b) →
        (∀ r, x ≠ .out r) → x ∈ a ++ .popNote v :: b ∧ (∀ v, x ≠ .pushWait v) ∧ ∀ w, x ≠ .flushWait w := by
      intro x hx h1 h2 h3
      simp only [List.mem_append, List.mem_cons] at hx ⊢
      rcases hx with hx | hx | hx
      · have := wake_mem hx h1 h2
        exact ⟨.inl this.1, this.2⟩
      · exact absurd hx (h3 _)
      · have := wake_mem hx h1 h2
        exact ⟨.inr (.inr this.1), this.2⟩
    refine ⟨i.room, ?_, ?_, ?_⟩
    · intro hm
      have := ipop (hback _ hm (by rintro _ ⟨⟩) (by rintro _ _ ⟨⟩) (by rintro _ ⟨⟩)).1
      simp only [isPop, isPushNote, List.countP_append, List.countP_cons, wake_count isPop_wake, wake_count isPushNote_wake,
        if_false, Bool.false_eq_true] at this ⊢
      exact this
    · intro u hm
      exact absurd rfl ((hback _ hm (by rintro _ ⟨⟩) (by rintro _ _ ⟨⟩) (by rintro _ ⟨⟩)).2.1 u)
    · intro w n hm
      exact absurd rfl ((hback _ hm (by rintro _ ⟨⟩) (by rintro _ _ ⟨⟩) (by rintro _ ⟨⟩)).2.2 w)

theorem Awake.ext {max : Nat} {s s' : St T} (i : Awake max s) (h : Ext s s') : Awake max s' := by
  -- in every case one thread moves to a place where it is not asleep, or stays
  have key : ∀ {a b : List (Pc T)} {p p' : Pc T}, s.threads = a ++ p :: b →
      (p' = p ∨ (p' ≠ .popWait ∧ (∀ v, p' ≠ .pushWait v) ∧ (∀ w, p' ≠ .flushWait w) ∧ (∀ u, p ≠ .popNote u) ∧
        (isPop p = true → isPop p' = true) ∧ (isPushNote p = true → isPushNote p' = true))) →
      Awake max { s with threads := a ++ p' :: b } := by
    intro a b p p' h hp
    rcases hp with rfl | ⟨h1, h2, h3, h4, h5, h6⟩
    · rw [← h]; exact i
    · have ipop := i.pop
      have ipush := i.push
      have iflush := i.flush
      rw [h] at ipop ipush iflush
      refine ⟨i.room, ?_, ?_, ?_⟩
      · intro hm
        have := ipop (mem_ext hm h1.symm)
        simp only [List.countP_append, List.countP_cons] at this ⊢
        have e5 : (if isPop p = true then 1 else 0) ≤ if isPop p' = true then 1 else 0 := by
          split_ifs with x y y <;> first | omega | exact absurd (h5 x) y
        have e6 : (if isPushNote p = true then 1 else 0) ≤ if isPushNote p' = true then 1 else 0 := by
          split_ifs with x y y <;> first | omega | exact absurd (h6 x) y
        omega
      · intro u hm hl
        obtain ⟨w, hw⟩ := ipush u (mem_ext hm (h2 u).symm) hl
        exact ⟨w, mem_mid (h4 w) hw _⟩
      · intro w n hm hn hw
        obtain ⟨w, hw⟩ := iflush w n (mem_ext hm (h3 w).symm) hn hw
        exact ⟨w, mem_mid (h4 w) hw _⟩
  cases h with
  | call h hp =>
    refine key h (.inr ?_)
    rcases hp with ⟨v, rfl⟩ | rfl | rfl <;>
      exact ⟨by rintro ⟨⟩, by rintro _ ⟨⟩, by rintro _ ⟨⟩, by rintro _ ⟨⟩, by rintro ⟨⟩, by rintro ⟨⟩⟩
  | late h =>
    exact key h (.inr ⟨by rintro ⟨⟩, by rintro _ ⟨⟩, by rintro _ ⟨⟩, by rintro _ ⟨⟩, by rintro ⟨⟩, by rintro ⟨⟩⟩)
  | @wake a b p h =>
    refine key h ?_
    cases p <;> first
      | exact .inl rfl
      | exact .inr ⟨by rintro ⟨⟩, by rintro _ ⟨⟩, by rintro _ ⟨⟩, by rintro _ ⟨⟩, by rintro ⟨⟩, by rintro ⟨⟩⟩

theorem Awake.init (max : Nat) (st : Bool) (n : Nat) : Awake max (St.init T st n) := by
  have h : ∀ p : Pc T, p ∈ (St.init T st n).threads → p = .out .void := fun p hp => List.eq_of_mem_replicate hp
  refine ⟨Nat.zero_le _, ?_, ?_, ?_⟩
  · intro hm
    exact absurd (h _ hm) (by rintro ⟨⟩)
  · intro v hm
    exact absurd (h _ hm) (by rintro ⟨⟩)
  · intro w n hm
    exact absurd (h _ hm) (by rintro ⟨⟩)

theorem Reach.awake {max n : Nat} {st : Bool} {o : Out (St T)} (h : Reach max st n o) : ∀ s, o = .ok s → Awake max s := by
  induction h with
  | init => intro s e; cases e; exact Awake.init max st n
  | step h hs ih =>
    intro s' e
    cases e
    cases hs with
    | run hr => exact (ih _ rfl).run hr
    | ext he => exact (ih _ rfl).ext he

/-! ### What goes in comes out -/

/-- The contents are what was put in and not taken out, and calls of `Pop` return what they took out. -/
structure Kept (s : St T) : Prop where
  fifo : s.ins.map (·.2) = s.outs.map (·.2) ++ s.q.d
  mine : ∀ i v, (s.threads[i]? = some (.popNote v) ∨ s.threads[i]? = some (.out (.got v))) →
    ((s.outs.filter fun x => decide (x.1 = i)).getLast?).map (·.2) = some v

theorem get_mid {a b : List (Pc T)} {p : Pc T} (i : Nat) :
    (a ++ p :: b)[i]? = if i = a.length then some p else (a ++ p :: b)[i]? := by
  split_ifs with h
  · subst h; simp
  · rfl

theorem get_other {a b : List (Pc T)} (p p' : Pc T) {i : Nat} (h : i ≠ a.length) : (a ++ p :: b)[i]? = (a ++ p' :: b)[i]? := by
  by_cases hi : i < a.length
  · rw [List.getElem?_append_left hi, List.getElem?_append_left hi]
  · have hle : a.length ≤ i := Nat.le_of_not_lt hi
    rw [List.getElem?_append_right hle, List.getElem?_append_right hle]
    obtain ⟨k, hk⟩ : ∃ k, i - a.length = k + 1 := ⟨i - a.length - 1, by omega⟩
    rw [hk]
    rfl

theorem get_at {a b : List (Pc T)} (p : Pc T) : (a ++ p :: b)[a.length]? = some p := by simp

theorem Kept.move {s : St T} (k : Kept s) {a b : List (Pc T)} {p p' : Pc T} (h : s.threads = a ++ p :: b)
    (hp : ∀ v, (p' = .popNote v ∨ p' = .out (.got v)) → (p = .popNote v ∨ p = .out (.got v))) :
    Kept { s with threads := a ++ p' :: b } := by
  refine ⟨k.fifo, ?_⟩
  intro i v hi
  apply k.mine i v
  rw [h]
  by_cases e : i = a.length
  · subst e
    simp only [get_at, Option.some.injEq] at hi ⊢
    exact hp v hi
  · rw [get_other p p' e]
    exact hi

theorem Kept.run {max : Nat} {s s' : St T} (k : Kept s) (h : Run max s (.ok s')) : Kept s' := by
  generalize ho : Out.ok s' = o at h
  cases h with
  | bad h hl => cases ho
  | @lock a b p p' q' h hl =>
    cases ho
    have same : ∀ {a b : List (Pc T)} {p p' : Pc T}, s.threads = a ++ p :: b → insOf a.length p p' = [] → outsOf a.length p p' = [] →
        (∀ v, p' ≠ .popNote v) → (∀ v, p' ≠ .out (.got v)) →
        Kept ⟨s.q, a ++ p' :: b, s.ins ++ insOf a.length p p', s.outs ++ outsOf a.length p p'⟩ := by
      intro a b p p' h h1 h2 h3 h4
      rw [h1, h2, List.append_nil, List.append_nil]
      refine k.move h ?_
      rintro v (e | e)
      · exact absurd e (h3 v)
      · exact absurd e (h4 v)
    rcases locked_cases hl with ⟨v, rfl, ⟨hr, rfl, rfl⟩ | ⟨hr, rfl, rfl⟩⟩ | ⟨rfl, ⟨hd, rfl, rfl⟩ | ⟨v, r, n, hd, hp, rfl, rfl⟩⟩ |
        ⟨n, w, late, hp, rfl, hpc, rfl⟩
    · simp only [insOf, outsOf, List.append_nil]
      refine ⟨?_, (k.move h (by rintro _ (e | e) <;> cases e)).mine⟩
      show (s.ins ++ [(a.length, v)]).map (·.2) = s.outs.map (·.2) ++ (s.q.d ++ [v])
      rw [List.map_append, k.fifo, List.append_assoc]
      rfl
    · exact same h rfl rfl (by rintro _ ⟨⟩) (by rintro _ ⟨⟩)
    · exact same h rfl rfl (by rintro _ ⟨⟩) (by rintro _ ⟨⟩)
    · simp only [insOf, outsOf, List.append_nil]
      refine ⟨?_, ?_⟩
      · show s.ins.map (·.2) = (s.outs ++ [(a.length, v)]).map (·.2) ++ r
        rw [k.fifo, hd, List.map_append, List.append_assoc]
        rfl
      · intro i u hi
        show (((s.outs ++ [(a.length, v)]).filter fun x => decide (x.1 = i)).getLast?).map (·.2) = some u
        rw [List.filter_append]
        by_cases e : i = a.length
        · subst e
          simp only [get_at, Option.some.injEq, Pc.popNote.injEq, reduceCtorEq, or_false] at hi
          simp [hi]
        · have : (List.filter (fun x : Nat × T => decide (x.1 = i)) [(a.length, v)]) = [] := by
            simp [Ne.symm e]
          rw [this, List.append_nil]
          apply k.mine i u
          rw [h, get_other Pc.pop (Pc.popNote v) e]
          exact hi
    · refine same h ?_ ?_ ?_ ?_
      · rcases hpc with ⟨rfl, -⟩ | rfl <;> rfl
      · rcases hpc with ⟨rfl, -⟩ | rfl <;> rfl
      · intro v; split_ifs <;> rintro ⟨⟩
      · intro v; split_ifs <;> rintro ⟨⟩
  | @noteNone a b h hn =>
    cases ho
    exact k.move h (by rintro _ (e | e) <;> cases e)
  | @noteOne a b a' b' h hw =>
    cases ho
    have k1 := k.move (p' := .out .void) h (by rintro _ (e | e) <;> cases e)
    exact k1.move (p := .popWait) (p' := .pop) hw (by rintro _ (e | e) <;> cases e)
  | @noteAll a b v h =>
    cases ho
    refine ⟨k.fifo, ?_⟩
    intro i u hi
    apply k.mine i u
    rw [h]
    have hi' : ((a ++ Pc.out (.got v) :: b).map wakeNotFull)[i]? = some (.popNote u) ∨
        ((a ++ Pc.out (.got v) :: b).map wakeNotFull)[i]? = some (.out (.got u)) := by
      rw [List.map_append, List.map_cons]
      exact hi
    rw [List.getElem?_map] at hi'
    by_cases e : i = a.length
    · subst e
      simp only [get_at, Option.map_some, wakeNotFull, Option.some.injEq, reduceCtorEq, Pc.out.injEq, Res.got.injEq, false_or] at hi'
      rw [get_at, hi']
      exact .inl rfl
    · rw [get_other (Pc.popNote v) (Pc.out (.got v)) e]
      cases hx : (a ++ Pc.out (.got v) :: b)[i]? with
      | none => rw [hx] at hi'; simp at hi'
      | some x =>
        rw [hx] at hi'
        cases x <;> simp [wakeNotFull] at hi' ⊢ <;> exact hi'

theorem Kept.ext {s s' : St T} (k : Kept s) (h : Ext s s') : Kept s' := by
  cases h with
  | call h hp =>
    refine k.move h ?_
    rcases hp with ⟨v, rfl⟩ | rfl | rfl <;> rintro _ (e | e) <;> cases e
  | late h => exact k.move h (by rintro _ (e | e) <;> cases e)
  | @wake a b p h =>
    refine k.move h ?_
    cases p <;> rintro _ (e | e) <;> cases e <;> first | exact .inl rfl | exact .inr rfl

theorem Reach.kept {max n : Nat} {st : Bool} {o : Out (St T)} (h : Reach max st n o) : ∀ s, o = .ok s → Kept s := by
  induction h with
  | init =>
    intro s e
    cases e
    refine ⟨rfl, ?_⟩
    intro i v hi
    have : ∀ p : Pc T, (St.init T st n).threads[i]? = some p → p = .out .void := fun p hp => List.eq_of_mem_replicate (List.mem_of_getElem? hp)
    rcases hi with hi | hi <;> cases this _ hi
  | step h hs ih =>
    intro s' e
    cases e
    cases hs with
    | run hr => exact (ih _ rfl).run hr
    | ext he => exact (ih _ rfl).ext he

/-! ### Coming to rest -/

/-- What a thread can still do by itself, in a group of `N` threads. -/
def weight (N : Nat) : Pc T → Nat
  | .out _ => 0
  | .pushNote | .popNote _ => N + 1
  | .pushWait _ | .popWait | .flushWait _ => N + 2
  | .push _ | .pop | .flush | .flushBack _ _ => N + 3

def work (N : Nat) (l : List (Pc T)) : Nat := (l.map (weight N)).sum

theorem work_mid (N : Nat) (a b : List (Pc T)) (p : Pc T) : work N (a ++ p :: b) = work N a + weight N p + work N b := by
  simp [work, Nat.add_assoc]

theorem work_wake (N : Nat) (l : List (Pc T)) : work N (l.map wakeNotFull) ≤ work N l + l.length := by
  induction l with
  | nil => exact Nat.le_refl _
  | cons p l ih =>
    have : weight N (wakeNotFull p) ≤ weight N p + 1 := by cases p <;> simp [wakeNotFull, weight]
    simp only [work, List.map_cons, List.sum_cons, List.length_cons] at ih ⊢
    omega

theorem Run.less {max : Nat} {s s' : St T} (h : Run max s (.ok s')) :
    s'.threads.length = s.threads.length ∧ work s.threads.length s'.threads < work s.threads.length s.threads := by
  generalize ho : Out.ok s' = o at h
  cases h with
  | bad h hl => cases ho
  | @lock a b p p' q' h hl =>
    cases ho
    rw [h]
    generalize hN : (a ++ p :: b).length = N
    refine ⟨by simpa using hN, ?_⟩
    have : weight N p' < weight N p := by
      rcases locked_cases hl with ⟨v, rfl, ⟨hr, rfl, rfl⟩ | ⟨hr, rfl, rfl⟩⟩ | ⟨rfl, ⟨hd, rfl, rfl⟩ | ⟨v, r, n, hd, hp, rfl, rfl⟩⟩ |
        ⟨n, w, late, hp, rfl, hpc, rfl⟩
      · simp [weight]
      · simp [weight]
      · simp [weight]
      · simp [weight]
      · rcases hpc with ⟨rfl, -⟩ | rfl <;> split_ifs <;> simp [weight]
    simp only [work_mid]
    omega
  | @noteNone a b h hn =>
    cases ho
    rw [h]
    refine ⟨by simp, ?_⟩
    simp only [work_mid, weight]
    omega
  | @noteOne a b a' b' h hw =>
    cases ho
    rw [h]
    have h1 := congrArg List.length hw
    generalize hN : (a ++ .pushNote :: b).length = N
    have h2 := congrArg (work N) hw
    simp only [List.length_append, List.length_cons] at h1 hN
    refine ⟨by simp only [List.length_append, List.length_cons]; omega, ?_⟩
    simp only [work_mid, weight] at h2 ⊢
    omega
  | @noteAll a b v h =>
    cases ho
    rw [h]
    generalize hN : (a ++ .popNote v :: b).length = N
    have h1 := work_wake N a
    have h2 := work_wake N b
    simp only [List.length_append, List.length_cons] at hN
    refine ⟨by simp only [List.length_append, List.length_cons, List.length_map]; omega, ?_⟩
    simp only [work_mid, weight]
    omega

/-- Nobody goes on by itself: every thread is outside or asleep. -/
def Rest (s : St T) : Prop :=
  ∀ p ∈ s.threads, (∃ r, p = .out r) ∨ p = .popWait ∨ (∃ v, p = .pushWait v) ∨ ∃ w, p = .flushWait w

theorem locked_out {max : Nat} {q : Q T} {p : Pc T} {o : Out (Q T × Pc T)} (h : locked max q p = some o) : o = .ub ∨ ∃ x, o = .ok x := by
  cases o with
  | ok x => exact .inr ⟨x, rfl⟩
  | ub => exact .inl rfl
  | abort =>
    exfalso
    cases p with
    | push v => cases h
    | pop =>
      simp only [locked, lockPop, Option.some.injEq] at h
      split at h
      · cases h
      · split at h <;> cases h
    | flush =>
      simp only [locked, lockFlush, flushTest, Option.some.injEq] at h
      cases hp : q.popped <;> rw [hp] at h <;> cases h
    | flushBack w late =>
      simp only [locked, flushTest, Option.some.injEq] at h
      cases hp : q.popped <;> rw [hp] at h <;> cases h
    | _ => cases h

theorem rest_iff {max : Nat} {s : St T} : Rest s ↔ ∀ o, ¬ Run max s o := by
  constructor
  · intro hr o h
    cases h with
    | @lock a b p p' q' h hl =>
      have := hr p (by rw [h]; simp)
      rcases this with ⟨r, rfl⟩ | rfl | ⟨v, rfl⟩ | ⟨w, rfl⟩ <;> cases hl
    | @bad a b p h hl =>
      have := hr p (by rw [h]; simp)
      rcases this with ⟨r, rfl⟩ | rfl | ⟨v, rfl⟩ | ⟨w, rfl⟩ <;> cases hl
    | @noteNone a b h hn =>
      have := hr .pushNote (by rw [h]; simp)
      rcases this with ⟨r, e⟩ | e | ⟨v, e⟩ | ⟨w, e⟩ <;> cases e
    | @noteOne a b a' b' h hn =>
      have := hr .pushNote (by rw [h]; simp)
      rcases this with ⟨r, e⟩ | e | ⟨v, e⟩ | ⟨w, e⟩ <;> cases e
    | @noteAll a b v h =>
      have := hr (.popNote v) (by rw [h]; simp)
      rcases this with ⟨r, e⟩ | e | ⟨v, e⟩ | ⟨w, e⟩ <;> cases e
  · intro hn p hp
    obtain ⟨a, b, h⟩ := List.append_of_mem hp
    have lk : ∀ o, locked max s.q p = some o → False := by
      intro o ho
      rcases locked_out ho with rfl | ⟨⟨q', p'⟩, rfl⟩
      · exact hn _ (.bad h ho)
      · exact hn _ (.lock h ho)
    cases p with
    | out r => exact .inl ⟨r, rfl⟩
    | popWait => exact .inr (.inl rfl)
    | pushWait v => exact .inr (.inr (.inl ⟨v, rfl⟩))
    | flushWait w => exact .inr (.inr (.inr ⟨w, rfl⟩))
    | push v => exact (lk _ rfl).elim
    | pop => exact (lk _ rfl).elim
    | flush => exact (lk _ rfl).elim
    | flushBack w late => exact (lk _ rfl).elim
    | popNote v => exact (hn _ (.noteAll h)).elim
    | pushNote =>
      by_cases hw : Pc.popWait ∈ a ++ b
      · have : Pc.popWait ∈ a ++ Pc.out Res.void :: b := by
          simp only [List.mem_append, List.mem_cons] at hw ⊢
          rcases hw with hw | hw
          · exact .inl hw
          · exact .inr (.inr hw)
        obtain ⟨a', b', h'⟩ := List.append_of_mem this
        exact (hn _ (.noteOne h h')).elim
      · exact (hn _ (.noteNone h hw)).elim

/-! ### The counter -/

theorem Reach.static {max n : Nat} {st : Bool} {o : Out (St T)} (h : Reach max st n o) (hst : st = true) :
    ∃ s, o = .ok s ∧ s.q.popped = some (UInt64.ofNat s.outs.length) := by
  induction h with
  | init => exact ⟨_, rfl, by rw [hst]; rfl⟩
  | @step s o h hs ih =>
    obtain ⟨s1, e, hp⟩ := ih
    cases e
    cases hs with
    | ext he => cases he <;> exact ⟨_, rfl, hp⟩
    | run hr =>
      cases hr with
      | @bad a b p h hl =>
        exfalso
        cases p with
        | push v => cases hl
        | pop =>
          simp only [locked, lockPop, hp, Option.some.injEq] at hl
          split at hl <;> cases hl
        | flush => simp only [locked, lockFlush, flushTest, hp, Option.some.injEq] at hl; cases hl
        | flushBack w late => simp only [locked, flushTest, hp, Option.some.injEq] at hl; cases hl
        | _ => cases hl
      | @lock a b p p' q' h hl =>
        refine ⟨_, rfl, ?_⟩
        rcases locked_cases hl with ⟨v, rfl, ⟨hr, rfl, rfl⟩ | ⟨hr, rfl, rfl⟩⟩ | ⟨rfl, ⟨hd, rfl, rfl⟩ | ⟨v, r, n, hd, hp', rfl, rfl⟩⟩ |
          ⟨n, w, late, hp', rfl, hpc, rfl⟩
        · simpa [outsOf] using hp
        · simpa [outsOf] using hp
        · simpa [outsOf] using hp
        · rw [hp] at hp'
          cases hp'
          simp only [outsOf, List.length_append, List.length_singleton, Option.some.injEq]
          apply UInt64.toNat_inj.mp
          simp
        · have : outsOf a.length p (if n ≥ w then .out (.flushed true) else if late = true then .out (.flushed false) else .flushWait w) = [] := by
            rcases hpc with ⟨rfl, -⟩ | rfl <;> rfl
          simpa [this] using hp
      | noteNone h hn => exact ⟨_, rfl, hp⟩
      | noteOne h hn => exact ⟨_, rfl, hp⟩
      | noteAll h => exact ⟨_, rfl, hp⟩

theorem Reach.uninit {max n : Nat} {st : Bool} {o : Out (St T)} (h : Reach max st n o) (hst : st = false) :
    ∀ s, o = .ok s → s.q.popped = none ∧ s.outs = [] := by
  induction h with
  | init => intro s e; cases e; rw [hst]; exact ⟨rfl, rfl⟩
  | @step s o h hs ih =>
    intro s' e
    cases e
    obtain ⟨h1, h2⟩ := ih _ rfl
    cases hs with
    | ext he => cases he <;> exact ⟨h1, h2⟩
    | run hr =>
      generalize ho : Out.ok s' = o at hr
      cases hr with
      | bad h hl => cases ho
      | @lock a b p p' q' h hl =>
        cases ho
        rcases locked_cases hl with ⟨v, rfl, ⟨hr, rfl, rfl⟩ | ⟨hr, rfl, rfl⟩⟩ | ⟨rfl, ⟨hd, rfl, rfl⟩ | ⟨v, r, n, hd, hp', rfl, rfl⟩⟩ |
          ⟨n, w, late, hp', rfl, hpc, rfl⟩
        · exact ⟨h1, by simp [outsOf, h2]⟩
        · exact ⟨h1, by simp [outsOf, h2]⟩
        · exact ⟨h1, by simp [outsOf, h2]⟩
        · rw [h1] at hp'; cases hp'
        · rw [h1] at hp'; cases hp'
      | noteNone h hn => cases ho; exact ⟨h1, h2⟩
      | noteOne h hn => cases ho; exact ⟨h1, h2⟩
      | noteAll h => cases ho; exact ⟨h1, h2⟩

end Svr.Queue
