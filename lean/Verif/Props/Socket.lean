import Verif.Socket

/-!
# C46: messages over a socket arrive intact and in order

`ser` and `par` are the protobuf library, of which only `par (ser m) = some m` is assumed. A history is any sequence of
events: writes, buffer switches, partial sends, partial receives, errors.
-/

namespace Svr.Props.Socket
open Svr Svr.Socket
variable {M : Type}

/-- **C46**: no history makes either end abort, leave its buffers, or read a length or a body that is refused. -/
theorem C46_no_abort {ser : M → Bytes} {par : Bytes → Option M} (hsp : ∀ m, par (ser m) = some m) (es : List (Ev M)) :
    ∃ s, run ser par Sys.init es = .ok s ∧ s.rph ≠ .closed .tooBig ∧ s.rph ≠ .closed .parse := by
  obtain ⟨s, h1, h2⟩ := Inv.run hsp es Inv.init
  refine ⟨s, h1, ?_, ?_⟩ <;> · intro h; rcases h2.err _ h with e | e <;> cases e

/-- **C46**: at any time, what the reader has parsed is a beginning of what was written, in the order of writing. -/
theorem C46_in_order {ser : M → Bytes} {par : Bytes → Option M} (hsp : ∀ m, par (ser m) = some m) {es : List (Ev M)} {s : Sys M}
    (h : run ser par Sys.init es = .ok s) : s.delivered <+: s.written := by
  obtain ⟨s', h1, h2⟩ := Inv.run hsp es Inv.init
  rw [h] at h1; cases h1
  exact h2.dl

/-- What was written is what `WritePB` was called with, but for messages of 2 GiB or more. -/
theorem C46_written {ser : M → Bytes} {par : Bytes → Option M} : ∀ {es : List (Ev M)} {s t : Sys M}, run ser par s es = .ok t →
    t.written = s.written ++ (es.filterMap (fun e => match e with | .write m => some m | _ => none)).filter (fun m => (ser m).length ≤ 2^31 - 1)
  | [], s, t, h => by cases h; simp
  | e :: es, s, t, h => by
    unfold run at h
    obtain ⟨s1, h1, h2⟩ := Out.bind_eq_ok.mp h
    have ih := C46_written h2
    rw [ih]
    cases e with
    | write m =>
      simp only [step] at h1
      rw [writePB_eq] at h1
      by_cases hf : (ser m).length > int32Max
      · rw [if_pos hf] at h1
        cases h1
        unfold int32Max at hf
        simp [show ¬ (ser m).length ≤ 2147483647 by omega]
      · rw [if_neg hf] at h1
        cases h1
        unfold int32Max at hf
        simp [show (ser m).length ≤ 2147483647 by omega]
    | take =>
      have : s1.written = s.written := by
        simp only [step] at h1; unfold takeBuf at h1
        split at h1
        · split at h1
          · cases h1; split <;> rfl
          · obtain ⟨_, _, h1⟩ := Out.bind_eq_ok.mp h1
            obtain ⟨_, _, h1⟩ := Out.bind_eq_ok.mp h1
            cases h1; rfl
        · cases h1; rfl
      simp [this]
    | send k =>
      have : s1.written = s.written := by
        simp only [step] at h1; unfold Svr.Socket.sendSome at h1; cases h1; split <;> rfl
      simp [this]
    | sendErr =>
      have : s1.written = s.written := by
        simp only [step] at h1; unfold Svr.Socket.sendErr at h1; cases h1; split <;> rfl
      simp [this]
    | clear =>
      have : s1.written = s.written := by
        simp only [step] at h1; unfold clearBuf at h1; cases h1; split
        · split
          · rfl
          · unfold Sys.setBuf; split <;> rfl
        · rfl
      simp [this]
    | kill => cases h1; simp [kill]
    | recv k =>
      have hb : ∀ {s0 s1 : Sys M} {n : Nat}, endBody par s0 n = .ok s1 → s1.written = s0.written := by
        intro s0 s1 n h
        unfold endBody at h
        split at h
        · cases h
        · split at h <;> (cases h; rfl)
      have hh : ∀ {s0 s1 : Sys M}, endHdr par s0 = .ok s1 → s1.written = s0.written := by
        intro s0 s1 h
        unfold endHdr at h
        simp only at h
        split at h
        · cases h; rfl
        · split at h
          · have := hb h; exact this
          · cases h; rfl
      have : s1.written = s.written := by
        simp only [step] at h1; unfold Svr.Socket.recvSome at h1
        simp only at h1
        split at h1
        · obtain ⟨_, _, h1⟩ := Out.bind_eq_ok.mp h1
          split at h1
          · have := hh h1; exact this
          · cases h1; rfl
        · obtain ⟨_, _, h1⟩ := Out.bind_eq_ok.mp h1
          split at h1
          · have := hb h1; exact this
          · cases h1; rfl
        · cases h1; rfl
      simp [this]
    | recvErr b =>
      have : s1.written = s.written := by
        simp only [step] at h1; unfold Svr.Socket.recvErr at h1; cases h1; split <;> rfl
      simp [this]

/-! ## Everything arrives -/

/-- The reader never sits on a complete length or message. -/
def Strict (s : Sys M) : Prop :=
  (∀ pos, s.rph = .hdr pos → pos < 4) ∧ (∀ size pos, s.rph = .body size pos → pos < size)

theorem strict_endBody {par : Bytes → Option M} {s t : Sys M} {n : Nat} (h : endBody par s n = .ok t) : Strict t := by
  unfold endBody at h
  split at h
  · cases h
  · split at h <;> cases h
    · exact ⟨(fun _ h => by cases h), (fun _ _ h => by cases h)⟩
    · exact ⟨(fun _ h => by cases h; omega), (fun _ _ h => by cases h)⟩

theorem strict_endHdr {par : Bytes → Option M} {s t : Sys M} (h : endHdr par s = .ok t) : Strict t := by
  unfold endHdr at h
  simp only at h
  split at h
  · cases h; exact ⟨(fun _ h => by cases h), (fun _ _ h => by cases h)⟩
  · split at h
    · exact strict_endBody h
    · cases h
      exact ⟨(fun _ h => by cases h), (fun _ _ h => by cases h; omega)⟩

theorem strict_of_rph {s t : Sys M} (hs : Strict s) (h : t.rph = s.rph) : Strict t := by
  unfold Strict; rw [h]; exact hs

theorem strict_recv {par : Bytes → Option M} {s t : Sys M} (hs : Strict s) {k : Nat} (h : Svr.Socket.recvSome par k s = .ok t) : Strict t := by
  unfold Svr.Socket.recvSome at h
  cases hr : s.rph with
  | hdr pos =>
    simp only [hr] at h
    obtain ⟨_, _, h⟩ := Out.bind_eq_ok.mp h
    split at h
    · exact strict_endHdr h
    · cases h
      have := hs.1 pos hr
      refine ⟨fun p hp => ?_, (fun _ _ h => by cases h)⟩
      simp only [RPhase.hdr.injEq] at hp
      have hl : (s.wire.take (min k (4 - pos))).length ≤ 4 - pos := by rw [List.length_take]; omega
      omega
  | body size pos =>
    simp only [hr] at h
    obtain ⟨_, _, h⟩ := Out.bind_eq_ok.mp h
    split at h
    · exact strict_endBody h
    · cases h
      have := hs.2 size pos hr
      refine ⟨(fun _ h => by cases h), fun a p hp => ?_⟩
      simp only [RPhase.body.injEq] at hp
      have hl : (s.wire.take (min k (size - pos))).length ≤ size - pos := by rw [List.length_take]; omega
      omega
  | closed e => simp only [hr] at h; cases h; exact hs

theorem strict_step {ser : M → Bytes} {par : Bytes → Option M} {s t : Sys M} (hs : Strict s) {e : Ev M} (h : step ser par s e = .ok t) : Strict t := by
  cases e with
  | write m =>
    simp only [step] at h
    rw [writePB_eq] at h
    split at h <;> cases h
    · exact hs
    · refine strict_of_rph hs ?_
      unfold Sys.setBuf; simp only; split <;> rfl
  | take =>
    simp only [step] at h; unfold takeBuf at h
    split at h
    · split at h
      · cases h
        split
        · exact strict_of_rph hs rfl
        · exact hs
      · obtain ⟨_, _, h⟩ := Out.bind_eq_ok.mp h
        obtain ⟨_, _, h⟩ := Out.bind_eq_ok.mp h
        cases h; exact strict_of_rph hs rfl
    · cases h; exact hs
  | send k =>
    cases h
    refine strict_of_rph hs ?_
    unfold Svr.Socket.sendSome; split <;> rfl
  | sendErr =>
    cases h
    refine strict_of_rph hs ?_
    unfold Svr.Socket.sendErr; split <;> rfl
  | clear =>
    cases h
    refine strict_of_rph hs ?_
    unfold clearBuf; split
    · split
      · rfl
      · unfold Sys.setBuf; split <;> rfl
    · rfl
  | kill => cases h; exact strict_of_rph hs rfl
  | recv k => exact strict_recv hs h
  | recvErr b =>
    cases h
    unfold Svr.Socket.recvErr
    split
    · exact hs
    · exact ⟨(fun _ h => by cases h), (fun _ _ h => by cases h)⟩

theorem strict_run {ser : M → Bytes} {par : Bytes → Option M} : ∀ {es : List (Ev M)} {s t : Sys M}, Strict s → run ser par s es = .ok t → Strict t
  | [], _, _, hs, h => by cases h; exact hs
  | e :: es, s, t, hs, h => by
    unfold run at h
    obtain ⟨s1, h1, h2⟩ := Out.bind_eq_ok.mp h
    exact strict_run (strict_step hs h1) h2

theorem strict_init : Strict (Sys.init : Sys M) := ⟨(fun _ h => by cases h; omega), (fun _ _ h => by cases h)⟩

theorem delivered_all {ser : M → Bytes} {s : Sys M} (hi : Inv ser s) (hs : Strict s) (hc : ∀ e, s.rph ≠ .closed e) (hw : s.wire = [])
    (ha : frames ser s.written = s.sent) : s.delivered = s.written := by
  have hcl : isClosed s = false := by
    unfold isClosed
    cases h : s.rph with
    | closed e => exact absurd h (hc e)
    | _ => rfl
  obtain ⟨u, hu1, hu2⟩ := hi.rd
  obtain ⟨more, hm⟩ := hi.dl
  rw [hu1, hu2 hcl, hw, List.append_nil, ← hm, frames_append] at ha
  have ha := List.append_cancel_left ha
  match more, hm, ha with
  | [], hm, _ => rw [← hm, List.append_nil]
  | m :: more, hm, ha =>
    exfalso
    have hf : frames ser (m :: more) = be32 (ser m).length ++ (ser m ++ frames ser more) := by simp [frames, frame]
    rw [hf] at ha
    have hl := congrArg List.length ha
    simp only [List.length_append, be32_length] at hl
    cases hr : s.rph with
    | hdr pos =>
      have := hs.1 pos hr
      unfold partialMsg at hl
      rw [hr] at hl
      simp only [List.length_take] at hl
      omega
    | body size pos =>
      have h1 := hs.2 size pos hr
      have h2 := hi.bd size pos hr
      have h3 := hi.fits m (by rw [← hm]; simp)
      unfold partialMsg at ha hl
      rw [hr] at ha hl
      simp only at ha hl
      have e := (List.append_inj ha (by simp [be32_length])).1
      have e := be32_inj (by unfold int32Max at h3; omega) (by unfold int32Max at h2; omega) e
      simp only [List.length_append, be32_length, List.length_take] at hl
      omega
    | closed e => exact hc e hr

/-- **C46**: when both buffers and the stream are empty, and no end has failed, all that was written has been read. -/
theorem C46_all_delivered {ser : M → Bytes} {par : Bytes → Option M} (hsp : ∀ m, par (ser m) = some m) {es : List (Ev M)} {s : Sys M}
    (h : run ser par Sys.init es = .ok s) (h0 : s.buf0 = []) (h1 : s.buf1 = []) (hw : s.wire = []) (hp : s.wph ≠ .stopped)
    (hc : ∀ e, s.rph ≠ .closed e) : s.delivered = s.written := by
  obtain ⟨s', h2, hi⟩ := Inv.run hsp es Inv.init
  rw [h] at h2; cases h2
  have hb : ∀ b, s.buf b = [] := by intro b; unfold Sys.buf; cases b <;> assumption
  refine delivered_all hi (strict_run strict_init h) hc hw ?_
  have := hi.wr hp
  rw [hb, List.append_nil] at this
  rw [this]
  unfold rest
  split
  · rename_i b pos hw
    rw [hb]; simp
  · simp

/-! ## Flushing -/

/-- What holds between the call of `FlushIfAble` (then `F` was written and `target` computed) and its return. -/
structure Flush (F : Bytes) (target : Nat) (t : Sys M) : Prop where
  sent : target ≤ t.writes → F <+: t.sent
  idle : t.wph = .idle → F <+: t.sent ++ t.buf t.cur
  sending1 : ∀ b pos, t.wph = .sending b pos → F <+: t.sent ++ rest t ++ t.buf t.cur
  sending2 : ∀ b pos, t.wph = .sending b pos → target ≤ t.writes + 1 → F <+: t.sent ++ rest t

theorem Flush.of_eq {F : Bytes} {target : Nat} {s t : Sys M} (h : Flush F target s) (e1 : t.sent = s.sent) (e2 : t.writes = s.writes)
    (e3 : t.wph = s.wph) (e4 : t.cur = s.cur) (e5 : t.buf = s.buf) : Flush F target t := by
  have er : rest t = rest s := by unfold rest; rw [e3, e5]
  exact ⟨by rw [e1, e2]; exact h.sent, by rw [e1, e3, e4, e5]; exact h.idle, by rw [e1, e3, e4, e5, er]; exact h.sending1,
    by rw [e1, e2, e3, er]; exact h.sending2⟩

theorem Flush.start {ser : M → Bytes} {s : Sys M} (hi : Inv ser s) : Flush (frames ser s.written) (flushTarget s) s ∨ s.wph = .stopped := by
  by_cases hst : s.wph = .stopped
  · exact .inr hst
  left
  have hwr := hi.wr hst
  cases hw : s.wph with
  | stopped => exact absurd hw hst
  | idle =>
    have hr : rest s = [] := by unfold rest; rw [hw]
    rw [hr, List.append_nil] at hwr
    refine ⟨fun ht => ?_, fun _ => ⟨[], by rw [hwr, List.append_nil]⟩, (fun b p h => by rw [hw] at h; cases h), (fun b p h => by rw [hw] at h; cases h)⟩
    unfold flushTarget at ht
    have hz : (s.buf s.cur) = [] := by
      by_contra hne
      have := List.length_pos_of_ne_nil hne
      rw [if_pos this] at ht
      omega
    rw [hwr, hz, List.append_nil]; exact List.prefix_refl _
  | sending b pos =>
    obtain ⟨rfl, h2, h3⟩ := hi.snd b pos hw
    have h4 := List.length_pos_of_ne_nil h3
    refine ⟨fun ht => ?_, (fun h => by rw [hw] at h; cases h), (fun b p _ => by rw [← hwr]; exact List.prefix_refl _), fun b p _ ht => ?_⟩
    · unfold flushTarget at ht
      rw [if_pos h4] at ht
      omega
    · unfold flushTarget at ht
      rw [if_pos h4] at ht
      have hz : (s.buf s.cur) = [] := by
        by_contra hne
        have := List.length_pos_of_ne_nil hne
        rw [if_pos this] at ht
        omega
      rw [hwr, hz, List.append_nil]; exact List.prefix_refl _

theorem prefix_append_right {F a : Bytes} (h : F <+: a) (b : Bytes) : F <+: a ++ b := h.trans (List.prefix_append a b)

theorem Flush.step {F : Bytes} {target : Nat} {ser : M → Bytes} {par : Bytes → Option M} {s t : Sys M} (hi : Inv ser s) (hf : Flush F target s)
    {e : Ev M} (h : step ser par s e = .ok t) : Flush F target t := by
  cases e with
  | write m =>
    simp only [Svr.Socket.step] at h
    rw [writePB_eq] at h
    split at h
    · cases h; exact hf
    · obtain ⟨s', hs'⟩ : ∃ s' : Sys M, s' = { s.setBuf s.cur (s.buf s.cur ++ frame ser m) with written := s.written ++ [m] } := ⟨_, rfl⟩
      have : t = s' := by cases h; exact hs'.symm
      subst this
      have h0 : t.buf s.cur = s.buf s.cur ++ frame ser m := by rw [hs']; exact setBuf_buf s s.cur _
      have h0' : t.buf (!s.cur) = s.buf (!s.cur) := by rw [hs']; exact setBuf_other s s.cur _
      obtain ⟨h1, h2, h3, h4⟩ : t.wph = s.wph ∧ t.sent = s.sent ∧ t.cur = s.cur ∧ t.writes = s.writes := by
        rw [hs']; unfold Sys.setBuf; cases s.cur <;> exact ⟨rfl, rfl, rfl, rfl⟩
      have hrest : rest t = rest s := by
        unfold rest
        rw [h1]
        cases hw : s.wph with
        | sending b pos =>
          obtain ⟨rfl, _⟩ := hi.snd b pos hw
          simp only [h0']
        | idle => rfl
        | stopped => rfl
      refine ⟨by rw [h2, h4]; exact hf.sent, ?_, ?_, by rw [h1, h2, h4, hrest]; exact hf.sending2⟩
      · intro hw
        rw [h2, h3, h0, ← List.append_assoc]
        exact prefix_append_right (hf.idle (h1 ▸ hw)) _
      · intro b p hw
        rw [h2, h3, h0, hrest, ← List.append_assoc]
        exact prefix_append_right (hf.sending1 b p (h1 ▸ hw)) _
  | take =>
    simp only [Svr.Socket.step] at h; unfold takeBuf at h
    cases hw : s.wph with
    | idle =>
      simp only [hw] at h
      split at h
      · cases h
        split
        · refine ⟨hf.sent, ?_, ?_, ?_⟩
          · intro h; cases h
          · intro b p h; cases h
          · intro b p h; cases h
        · exact hf
      · obtain ⟨_, _, h⟩ := Out.bind_eq_ok.mp h
        obtain ⟨_, _, h⟩ := Out.bind_eq_ok.mp h
        cases h
        have h1 := hf.idle hw
        have h2 := hi.idle hw
        refine ⟨hf.sent, (fun h => by cases h), fun b p h => ?_, fun b p h _ => ?_⟩
        · change F <+: s.sent ++ List.drop 0 (s.buf s.cur) ++ s.buf (!s.cur)
          rw [h2, List.append_nil]; exact h1
        · change F <+: s.sent ++ List.drop 0 (s.buf s.cur)
          exact h1
    | sending b pos => simp only [hw] at h; cases h; exact hf
    | stopped => simp only [hw] at h; cases h; exact hf
  | send k =>
    cases h
    unfold Svr.Socket.sendSome
    cases hw : s.wph with
    | idle => exact hf
    | stopped => exact hf
    | sending b pos =>
      have hsplit : (s.buf b).drop pos = ((s.buf b).drop pos).take k ++ ((s.buf b).drop (pos + (((s.buf b).drop pos).take k).length)) := by
        rw [← List.drop_drop]
        exact recv_split rfl
      have hr : rest s = (s.buf b).drop pos := by unfold rest; rw [hw]
      have g1 := hf.sending1 b pos hw
      have g2 := hf.sending2 b pos hw
      rw [hr] at g1 g2
      simp only
      generalize ((s.buf b).drop pos).take k = x at hsplit ⊢
      rw [hsplit] at g1 g2
      refine ⟨fun h => prefix_append_right (hf.sent h) _, (fun h => by cases h), fun b' p h => ?_, fun b' p h ht => ?_⟩
      · change F <+: s.sent ++ x ++ (s.buf b).drop (pos + x.length) ++ s.buf s.cur
        simpa only [List.append_assoc] using g1
      · change F <+: s.sent ++ x ++ (s.buf b).drop (pos + x.length)
        simpa only [List.append_assoc] using g2 ht
  | sendErr =>
    cases h
    unfold Svr.Socket.sendErr
    split
    · exact ⟨hf.sent, (fun h => by cases h), (fun _ _ h => by cases h), (fun _ _ h => by cases h)⟩
    · exact hf
  | clear =>
    cases h
    unfold clearBuf
    cases hw : s.wph with
    | idle => exact hf
    | stopped => exact hf
    | sending b pos =>
      simp only
      split
      · exact hf
      · rename_i hp
        obtain ⟨rfl, h2, h3⟩ := hi.snd b pos hw
        have hr : rest s = [] := by unfold rest; rw [hw]; exact List.drop_eq_nil_of_le (by omega)
        have g1 := hf.sending1 _ pos hw
        have g2 := hf.sending2 _ pos hw
        rw [hr, List.append_nil] at g1 g2
        have e1 : (s.setBuf (!s.cur) []).sent = s.sent := by unfold Sys.setBuf; split <;> rfl
        have e2 : (s.setBuf (!s.cur) []).cur = s.cur := by unfold Sys.setBuf; split <;> rfl
        refine ⟨fun ht => ?_, fun _ => ?_, (fun _ _ h => by cases h), (fun _ _ h => by cases h)⟩
        · simp only [e1]; exact g2 ht
        · simp only [e1, e2]
          change F <+: s.sent ++ (s.setBuf (!s.cur) []).buf s.cur
          rw [setBuf_other']; exact g1
  | kill => cases h; exact hf.of_eq rfl rfl rfl rfl rfl
  | recv k =>
    have hb : ∀ {s0 s1 : Sys M} {n : Nat}, endBody par s0 n = .ok s1 → s1.sent = s0.sent ∧ s1.writes = s0.writes ∧ s1.wph = s0.wph ∧ s1.cur = s0.cur ∧ s1.buf = s0.buf := by
      intro s0 s1 n h
      unfold endBody at h
      split at h
      · cases h
      · split at h <;> (cases h; exact ⟨rfl, rfl, rfl, rfl, rfl⟩)
    have hh : ∀ {s0 s1 : Sys M}, endHdr par s0 = .ok s1 → s1.sent = s0.sent ∧ s1.writes = s0.writes ∧ s1.wph = s0.wph ∧ s1.cur = s0.cur ∧ s1.buf = s0.buf := by
      intro s0 s1 h
      unfold endHdr at h
      simp only at h
      split at h
      · cases h; exact ⟨rfl, rfl, rfl, rfl, rfl⟩
      · split at h
        · have := hb h; exact this
        · cases h; exact ⟨rfl, rfl, rfl, rfl, rfl⟩
    have : t.sent = s.sent ∧ t.writes = s.writes ∧ t.wph = s.wph ∧ t.cur = s.cur ∧ t.buf = s.buf := by
      simp only [Svr.Socket.step] at h; unfold Svr.Socket.recvSome at h
      simp only at h
      split at h
      · obtain ⟨_, _, h⟩ := Out.bind_eq_ok.mp h
        split at h
        · have := hh h; exact this
        · cases h; exact ⟨rfl, rfl, rfl, rfl, rfl⟩
      · obtain ⟨_, _, h⟩ := Out.bind_eq_ok.mp h
        split at h
        · have := hb h; exact this
        · cases h; exact ⟨rfl, rfl, rfl, rfl, rfl⟩
      · cases h; exact ⟨rfl, rfl, rfl, rfl, rfl⟩
    exact hf.of_eq this.1 this.2.1 this.2.2.1 this.2.2.2.1 this.2.2.2.2
  | recvErr b =>
    cases h
    unfold Svr.Socket.recvErr
    split
    · exact hf
    · exact hf.of_eq rfl rfl rfl rfl rfl

theorem Flush.run {F : Bytes} {target : Nat} {ser : M → Bytes} {par : Bytes → Option M} (hsp : ∀ m, par (ser m) = some m) :
    ∀ {es : List (Ev M)} {s t : Sys M}, Inv ser s → Flush F target s → run ser par s es = .ok t → Flush F target t
  | [], _, _, _, hf, h => by cases h; exact hf
  | e :: es, s, t, hi, hf, h => by
    unfold Svr.Socket.run at h
    obtain ⟨s1, h1, h2⟩ := Out.bind_eq_ok.mp h
    obtain ⟨s1', h3, h4⟩ := hi.step hsp e
    rw [h1] at h3; cases h3
    exact Flush.run hsp h4 (hf.step hi h1) h2

/-- **C46**, `FlushIfAble`: if it is called while the writing thread runs and the number of writes reaches what it
waits for, then all messages written before the call have been given to the stream. -/
theorem C46_flush {ser : M → Bytes} {par : Bytes → Option M} (hsp : ∀ m, par (ser m) = some m) {es es' : List (Ev M)} {s t : Sys M}
    (h : run ser par Sys.init es = .ok s) (hp : s.wph ≠ .stopped) (h' : run ser par s es' = .ok t) (hw : flushTarget s ≤ t.writes) :
    s.written.flatMap (fun m => be32 (ser m).length ++ ser m) <+: t.sent := by
  obtain ⟨s', h2, hi⟩ := Inv.run hsp es Inv.init
  rw [h] at h2; cases h2
  rcases Flush.start hi with hf | hst
  · exact (Flush.run hsp hi hf h').sent hw
  · exact absurd hst hp

/-! ## A concrete case -/

/-- Messages of the example: byte strings, not serialised. -/
def serB (m : Bytes) : Bytes := m

/-- Two messages are written while a buffer is being sent, in pieces; the reader gets pieces too. -/
def history : List (Ev Bytes) :=
  [.write [1, 2], .take, .write [], .send 3, .recv 2, .send 10, .write [7], .clear, .recv 10, .take, .send 4, .recv 1, .recv 10,
   .send 10, .clear, .recv 10, .recv 10, .recv 10]

example : (∀ m, some (serB m) = some m) := fun _ => rfl

example : ∃ s, run serB some Sys.init history = .ok s ∧ s.delivered = [[1, 2], [], [7]] ∧ s.writes = 2 ∧ s.wire = [] ∧
    s.buf0 = [] ∧ s.buf1 = [] ∧ s.wph = .idle ∧ s.rph = .hdr 0 := by
  refine ⟨_, rfl, ?_⟩
  decide

/-- In that history, a flush after the second write waits for two writes. -/
example : ∃ s, run serB some Sys.init (history.take 3) = .ok s ∧ flushTarget s = 2 ∧ s.wph = .sending true 0 := by
  refine ⟨_, rfl, ?_⟩
  decide

end Svr.Props.Socket
