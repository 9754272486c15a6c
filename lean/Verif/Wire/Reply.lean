import Verif.Wire.ClientProof

/-!
# The wire format of what clients are answered

Responses (shared/proto/client.proto, client3.proto, client4.proto, client5.proto), as `EncryptResponse` serializes them
(enclave/client/client.cc:143-155), and as a client reads them. Clients are not part of the repository; what they read is the specification of
the protobuf format. A status that has no name in the protocol is refused here, while the library keeps its number.
-/

namespace Svr.Wire

/-- How responses `R` are written and read: the numbers of the oneof, the member that a response is, and what is read in a member. -/
structure Answer (R : Type) where
  known : List Nat
  out : R → Option (Nat × Fields)
  val : Option (Nat × Fields) → Option R

namespace Answer
variable {R : Type} (A : Answer R)

def fields (r : R) : Fields :=
  match A.out r with
  | some (k, gs) => [(k, .len (enc gs))]
  | none => []

/-- `SerializeToString`. -/
def encode (r : R) : Bytes := enc (A.fields r)

/-- `ParseFromString`. -/
def decode (b : Bytes) : Option R := ((split true b).bind (oneof A.known)).bind A.val

end Answer

def flag (f : Nat) (fs : Fields) : Bool := decide (getNum f 0 fs ≠ 0)
/-- A `uint32` as a number. -/
def tries (f : Nat) (fs : Fields) : Nat := (getU32 f fs).toNat

/-! ## SVR2 -/

/-- `RestoreResponse::Status` (shared/proto/client.proto:73-79). -/
def restoreCode : DB2.RestoreStatus → Nat
  | .ok => 1 | .missing => 2 | .pinMismatch => 3 | .error => 4
def restoreStatus (n : Nat) : Option DB2.RestoreStatus :=
  if n = 1 then some .ok else if n = 2 then some .missing else if n = 3 then some .pinMismatch else if n = 4 then some .error else none

/-- Statuses of two values, 1 and 2. -/
def twoCode (b : Bool) : Nat := if b then 1 else 2
def twoStatus (n : Nat) : Option Bool := if n = 1 then some true else if n = 2 then some false else none

/-- `Response` (shared/proto/client.proto:35-134). -/
def answer2 : Answer DB2.Resp where
  known := [1, 2, 3, 4, 5]
  out := fun
    | .backup => some (1, fNum 1 1)
    | .restore s d t => some (2, fNum 1 (restoreCode s) ++ fBytes 2 d ++ fNum 3 t)
    | .delete => some (3, [])
    | .expose ok => some (4, fNum 1 (twoCode ok))
    | .tries ok t x => some (5, fNum 1 (twoCode ok) ++ fNum 2 t ++ fBool 3 x)
    | .empty => none
  val := fun
    | none => some .empty
    | some (k, gs) =>
      if k = 1 then (if getNum 1 0 gs = 1 then some .backup else none)
      else if k = 2 then (restoreStatus (getNum 1 0 gs)).map fun s => .restore s (getLen 2 [] gs) (tries 3 gs)
      else if k = 3 then some .delete
      else if k = 4 then (twoStatus (getNum 1 0 gs)).map .expose
      else (twoStatus (getNum 1 0 gs)).map fun s => .tries s (tries 2 gs) (flag 3 gs)

/-! ## SVR3 -/

/-- `CreateResponse::Status` (shared/proto/client3.proto:40-45). -/
def createCode : DB3.CreateStatus → Nat
  | .ok => 1 | .invalidRequest => 2 | .error => 3
def createStatus (n : Nat) : Option DB3.CreateStatus :=
  if n = 1 then some .ok else if n = 2 then some .invalidRequest else if n = 3 then some .error else none

/-- `EvaluateResponse::Status` (shared/proto/client3.proto:59-65). -/
def evalCode : DB3.EvalStatus → Nat
  | .ok => 1 | .missing => 2 | .invalidRequest => 3 | .error => 4
def evalStatus (n : Nat) : Option DB3.EvalStatus :=
  if n = 1 then some .ok else if n = 2 then some .missing else if n = 3 then some .invalidRequest else if n = 4 then some .error else none

/-- `Response3` (shared/proto/client3.proto:21-28). A response without a member is not in the model's type: SVR3's `Run` sets one always. -/
def answer3 : Answer DB3.Resp where
  known := [1, 2, 3, 4]
  out := fun
    | .create s e => some (1, fNum 1 (createCode s) ++ fBytes 2 e)
    | .evaluate s e t => some (2, fNum 1 (evalCode s) ++ fBytes 2 e ++ fNum 3 t)
    | .remove => some (3, [])
    | .query ok t => some (4, fNum 1 (twoCode ok) ++ fNum 2 t)
  val := fun
    | none => none
    | some (k, gs) =>
      if k = 1 then (createStatus (getNum 1 0 gs)).map fun s => .create s (getLen 2 [] gs)
      else if k = 2 then (evalStatus (getNum 1 0 gs)).map fun s => .evaluate s (getLen 2 [] gs) (tries 3 gs)
      else if k = 3 then some .remove
      else (twoStatus (getNum 1 0 gs)).map fun s => .query s (tries 2 gs)

/-! ## SVR4 -/

/-- `Response4::Status` (shared/proto/client4.proto:69-81). -/
def code4 : DB4.Status → Nat
  | .unset => 0 | .ok => 1 | .invalidRequest => 2 | .missing => 3 | .error => 4 | .restore1Missing => 5 | .versionMismatch => 6 | .notRotating => 7
  | .alreadyRotating => 8 | .merkleFailure => 9 | .duplicateVersion => 10
def status4 (n : Nat) : Option DB4.Status :=
  if n = 0 then some .unset else if n = 1 then some .ok else if n = 2 then some .invalidRequest else if n = 3 then some .missing
  else if n = 4 then some .error else if n = 5 then some .restore1Missing else if n = 6 then some .versionMismatch
  else if n = 7 then some .notRotating else if n = 8 then some .alreadyRotating else if n = 9 then some .merkleFailure
  else if n = 10 then some .duplicateVersion else none

/-- `Restore1::Auth` (shared/proto/client4.proto:90-93). -/
def authF (a : Bytes × UInt32) : Nat × Raw := (2, .len (enc (fBytes 1 a.1 ++ fF32 2 a.2)))

def authStep (acc : List (Bytes × UInt32)) : Nat × Raw → Option (List (Bytes × UInt32))
  | (g, .len b) => if g = 2 then (split true b).map fun fs => acc ++ [(getLen 1 [] fs, getF32 2 fs)] else some acc
  | _ => some acc

def auths (fs : Fields) : Option (List (Bytes × UInt32)) := fs.foldlM authStep []

/-- `Response4` (shared/proto/client4.proto:57-124). -/
def answer4 : Answer DB4.Resp where
  known := [1, 2, 3, 4, 5, 6, 7, 8]
  out := fun
    | .create s t => some (1, fNum 1 (code4 s) ++ fNum 2 t)
    | .restore1 s a t => some (2, fNum 1 (code4 s) ++ a.map authF ++ fNum 3 t)
    | .restore2 s e => some (3, fNum 1 (code4 s) ++ fBytes 2 e)
    | .remove => some (4, [])
    | .query s t v w => some (5, fNum 1 (code4 s) ++ fNum 2 t ++ fF32 3 v ++ fF32 4 w)
    | .rotateStart s => some (6, fNum 1 (code4 s))
    | .rotateCommit s => some (7, fNum 1 (code4 s))
    | .rotateRollback s => some (8, fNum 1 (code4 s))
  val := fun
    | none => none
    | some (k, gs) =>
      if k = 4 then some .remove
      else (status4 (getNum 1 0 gs)).bind fun s =>
        if k = 1 then some (.create s (tries 2 gs))
        else if k = 2 then (auths gs).map fun a => .restore1 s a (tries 3 gs)
        else if k = 3 then some (.restore2 s (getLen 2 [] gs))
        else if k = 5 then some (.query s (tries 2 gs) (getF32 3 gs) (getF32 4 gs))
        else if k = 6 then some (.rotateStart s)
        else if k = 7 then some (.rotateCommit s)
        else some (.rotateRollback s)

/-! ## SVR5 -/

/-- `Response5::Status` (shared/proto/client5.proto:36-43). -/
def code5 : DB5.Status → Nat
  | .unset => 0 | .ok => 1 | .missing => 3 | .merkleFailure => 5
def status5 (n : Nat) : Option DB5.Status :=
  if n = 0 then some .unset else if n = 1 then some .ok else if n = 3 then some .missing else if n = 5 then some .merkleFailure else none

/-- `Response5` (shared/proto/client5.proto:29-55). -/
def answer5 : Answer DB5.Resp where
  known := [1, 2, 3]
  out := fun
    | .upload s => some (1, fNum 1 (code5 s))
    | .download s o => some (2, fNum 1 (code5 s) ++ fBytes 2 o)
    | .purge => some (3, [])
    | .none => none
  val := fun
    | none => some .none
    | some (k, gs) =>
      if k = 1 then (status5 (getNum 1 0 gs)).map .upload
      else if k = 2 then (status5 (getNum 1 0 gs)).map fun s => .download s (getLen 2 [] gs)
      else some .purge

/-! ## Read as written -/

theorem Answer.decode_encode {R : Type} {A : Answer R} {r : R} (hk : ∀ k gs, A.out r = some (k, gs) → k ∈ A.known ∧ 0 < k ∧ k < 2 ^ 29 ∧ ∀ y ∈ gs, Sound y)
    (hv : A.val (A.out r) = some r) (hl : (A.encode r).length ≤ maxLen) : A.decode (A.encode r) = some r := by
  unfold Answer.decode Answer.encode Answer.fields at *
  cases ho : A.out r with
  | none =>
    rw [ho] at hv
    simpa [enc, split, splitGo, oneof] using hv
  | some x =>
    obtain ⟨k, gs⟩ := x
    obtain ⟨h1, h2, h3, h4⟩ := hk k gs ho
    rw [ho] at hl hv
    simp only at hl ⊢
    have hm : (k, Raw.len (enc gs)) ∈ [(k, Raw.len (enc gs))] := List.mem_singleton.mpr rfl
    have hg : split true (enc gs) = some gs := split_sound h4 (Nat.le_trans (len_le_enc hm) hl)
    rw [split_sound (by intro y hy; rw [List.mem_singleton] at hy; subst hy; exact ⟨h2, h3, trivial⟩) hl]
    simpa [oneof, oneofStep, h1, hg] using hv

theorem getNum_fBool {f g d : Nat} (b : Bool) : getNum f d (fBool g b) = if b then (if g = f then 1 else d) else d := by
  unfold fBool; split <;> simp [getNum]
theorem getLen_fBool {f g : Nat} {d : Bytes} (b : Bool) : getLen f d (fBool g b) = d := by unfold fBool; split <;> simp [getLen]

theorem sound_bool {f : Nat} {b : Bool} (hf : 0 < f := by decide) (h29 : f < 2 ^ 29 := by decide) : ∀ y ∈ fBool f b, Sound y := by
  unfold fBool
  split
  · intro y hy; rw [List.mem_singleton] at hy; subst hy; exact ⟨hf, h29, by simp [Raw.Sound]⟩
  · intro y hy; cases hy

theorem u32_toNat {n : Nat} (h : n < 2 ^ 32) : (UInt32.ofNat n).toNat = n := UInt32.toNat_ofNat_of_lt' h

theorem n64 {n : Nat} (h : n < 2 ^ 32) : n < 2 ^ 64 := Nat.lt_trans h (by decide)

theorem read2 {r : DB2.Resp} (ht : match r with | .restore _ _ t => t < 2 ^ 32 | .tries _ t _ => t < 2 ^ 32 | _ => True)
    (hl : (answer2.encode r).length ≤ maxLen) : answer2.decode (answer2.encode r) = some r := by
  refine Answer.decode_encode ?_ ?_ hl
  · intro k gs ho
    cases r <;> simp only [answer2, Option.some.injEq, Prod.mk.injEq, reduceCtorEq] at ho
    all_goals obtain ⟨rfl, rfl⟩ := ho
    · exact ⟨by decide, by decide, by decide, sound_num (hn := by decide)⟩
    · rename_i s d t
      exact ⟨by decide, by decide, by decide, sound_append (sound_append (sound_num (hn := by cases s <;> decide)) sound_bytes) (sound_num (hn := n64 ht))⟩
    · exact ⟨by decide, by decide, by decide, sound_nil⟩
    · rename_i b
      exact ⟨by decide, by decide, by decide, sound_num (hn := by cases b <;> decide)⟩
    · rename_i b t x
      exact ⟨by decide, by decide, by decide, sound_append (sound_append (sound_num (hn := by cases b <;> decide)) (sound_num (hn := n64 ht))) sound_bool⟩
  · cases r with
    | backup => rfl
    | restore s d t =>
      have h1 : getNum 1 0 (fNum 1 (restoreCode s) ++ fBytes 2 d ++ fNum 3 t) = restoreCode s := by
        simp [getNum_append, getNum_fNum, getNum_fBytes, ite_zero]
      have h2 : getLen 2 [] (fNum 1 (restoreCode s) ++ fBytes 2 d ++ fNum 3 t) = d := by
        simp [getLen_append, getLen_fNum, getLen_fBytes, ite_nil]
      have h3 : tries 3 (fNum 1 (restoreCode s) ++ fBytes 2 d ++ fNum 3 t) = t := by
        simp only [tries, getU32, getNum_append, getNum_fNum, getNum_fBytes]
        simpa [ite_zero] using u32_toNat ht
      simp only [answer2, h1, h2, h3]
      cases s <;> rfl
    | delete => rfl
    | expose b => cases b <;> rfl
    | tries b t x =>
      have h1 : getNum 1 0 (fNum 1 (twoCode b) ++ fNum 2 t ++ fBool 3 x) = twoCode b := by
        simp [getNum_append, getNum_fNum, getNum_fBool, ite_zero]
      have h2 : Svr.Wire.tries 2 (fNum 1 (twoCode b) ++ fNum 2 t ++ fBool 3 x) = t := by
        simp only [tries, getU32, getNum_append, getNum_fNum, getNum_fBool]
        simpa [ite_zero] using u32_toNat ht
      have h3 : flag 3 (fNum 1 (twoCode b) ++ fNum 2 t ++ fBool 3 x) = x := by
        simp only [flag, getNum_append, getNum_fNum, getNum_fBool]
        cases x <;> simp
      simp only [answer2, h1, h2, h3]
      cases b <;> rfl
    | empty => rfl

theorem read3 {r : DB3.Resp} (ht : match r with | .evaluate _ _ t => t < 2 ^ 32 | .query _ t => t < 2 ^ 32 | _ => True)
    (hl : (answer3.encode r).length ≤ maxLen) : answer3.decode (answer3.encode r) = some r := by
  refine Answer.decode_encode ?_ ?_ hl
  · intro k gs ho
    cases r <;> simp only [answer3, Option.some.injEq, Prod.mk.injEq] at ho
    all_goals obtain ⟨rfl, rfl⟩ := ho
    · rename_i s e
      exact ⟨by decide, by decide, by decide, sound_append (sound_num (hn := by cases s <;> decide)) sound_bytes⟩
    · rename_i s d t
      exact ⟨by decide, by decide, by decide, sound_append (sound_append (sound_num (hn := by cases s <;> decide)) sound_bytes) (sound_num (hn := n64 ht))⟩
    · exact ⟨by decide, by decide, by decide, sound_nil⟩
    · rename_i b t
      exact ⟨by decide, by decide, by decide, sound_append (sound_num (hn := by cases b <;> decide)) (sound_num (hn := n64 ht))⟩
  · cases r with
    | create s e =>
      have h1 : getNum 1 0 (fNum 1 (createCode s) ++ fBytes 2 e) = createCode s := by
        simp [getNum_append, getNum_fNum, getNum_fBytes, ite_zero]
      have h2 : getLen 2 [] (fNum 1 (createCode s) ++ fBytes 2 e) = e := by
        simp [getLen_append, getLen_fNum, getLen_fBytes, ite_nil]
      simp only [answer3, h1, h2]
      cases s <;> rfl
    | evaluate s d t =>
      have h1 : getNum 1 0 (fNum 1 (evalCode s) ++ fBytes 2 d ++ fNum 3 t) = evalCode s := by
        simp [getNum_append, getNum_fNum, getNum_fBytes, ite_zero]
      have h2 : getLen 2 [] (fNum 1 (evalCode s) ++ fBytes 2 d ++ fNum 3 t) = d := by
        simp [getLen_append, getLen_fNum, getLen_fBytes, ite_nil]
      have h3 : tries 3 (fNum 1 (evalCode s) ++ fBytes 2 d ++ fNum 3 t) = t := by
        simp only [tries, getU32, getNum_append, getNum_fNum, getNum_fBytes]
        simpa [ite_zero] using u32_toNat ht
      simp only [answer3, h1, h2, h3]
      cases s <;> rfl
    | remove => rfl
    | query b t =>
      have h1 : getNum 1 0 (fNum 1 (twoCode b) ++ fNum 2 t) = twoCode b := by
        simp [getNum_append, getNum_fNum, ite_zero]
      have h2 : tries 2 (fNum 1 (twoCode b) ++ fNum 2 t) = t := by
        simp only [tries, getU32, getNum_append, getNum_fNum]
        simpa [ite_zero] using u32_toNat ht
      simp only [answer3, h1, h2]
      cases b <;> rfl

theorem status4_code4 (s : DB4.Status) : status4 (code4 s) = some s := by cases s <;> rfl
theorem code4_lt (s : DB4.Status) : code4 s < 2 ^ 64 := by cases s <;> decide

theorem getNum_auths {f d : Nat} (a : List (Bytes × UInt32)) : getNum f d (a.map authF) = d := getNum_skip _ _ (by simp [authF])

theorem auths_map : ∀ {a acc : List (Bytes × UInt32)}, (∀ x ∈ a, (enc (fBytes 1 x.1 ++ fF32 2 x.2)).length ≤ maxLen) →
    (a.map authF).foldlM authStep acc = some (acc ++ a)
  | [], acc, _ => by simp
  | (e, v) :: a, acc, h => by
    have h0 := split_sound (sound_append sound_bytes sound_f32) (h _ List.mem_cons_self)
    have hs : authStep acc (authF (e, v)) = some (acc ++ [(e, v)]) := by
      simp only [authStep, authF, if_true, h0, Option.map_some, getLen_append, getLen_fBytes, getLen_fF32, ite_nil, getF32, getFix32_append, getFix32_fBytes,
        getFix32_fF32, ite_f32]
    rw [List.map_cons, List.foldlM_cons, hs]
    show List.foldlM authStep _ _ = _
    rw [auths_map fun x hx => h x (List.mem_cons_of_mem _ hx)]
    simp

theorem auths_num {f n : Nat} {acc : List (Bytes × UInt32)} : (fNum f n).foldlM authStep acc = some acc := by
  unfold fNum; split <;> simp [authStep]

theorem read4 {r : DB4.Resp} (ht : match r with | .create _ t => t < 2 ^ 32 | .restore1 _ _ t => t < 2 ^ 32 | .query _ t _ _ => t < 2 ^ 32 | _ => True)
    (hl : (answer4.encode r).length ≤ maxLen) : answer4.decode (answer4.encode r) = some r := by
  refine Answer.decode_encode ?_ ?_ hl
  · intro k gs ho
    cases r <;> simp only [answer4, Option.some.injEq, Prod.mk.injEq] at ho
    all_goals obtain ⟨rfl, rfl⟩ := ho
    · exact ⟨by decide, by decide, by decide, sound_append (sound_num (hn := code4_lt _)) (sound_num (hn := n64 ht))⟩
    · refine ⟨by decide, by decide, by decide, sound_append (sound_append (sound_num (hn := code4_lt _)) fun y hy => ?_) (sound_num (hn := n64 ht))⟩
      obtain ⟨a, _, rfl⟩ := List.mem_map.1 hy
      exact ⟨by simp [authF], by simp [authF], trivial⟩
    · exact ⟨by decide, by decide, by decide, sound_append (sound_num (hn := code4_lt _)) sound_bytes⟩
    · exact ⟨by decide, by decide, by decide, sound_nil⟩
    · exact ⟨by decide, by decide, by decide, sound_append (sound_append (sound_append (sound_num (hn := code4_lt _)) (sound_num (hn := n64 ht))) sound_f32) sound_f32⟩
    · exact ⟨by decide, by decide, by decide, sound_num (hn := code4_lt _)⟩
    · exact ⟨by decide, by decide, by decide, sound_num (hn := code4_lt _)⟩
    · exact ⟨by decide, by decide, by decide, sound_num (hn := code4_lt _)⟩
  · cases r with
    | create s t =>
      have h1 : getNum 1 0 (fNum 1 (code4 s) ++ fNum 2 t) = code4 s := by simp [getNum_append, getNum_fNum, ite_zero]
      have h2 : tries 2 (fNum 1 (code4 s) ++ fNum 2 t) = t := by
        simp only [tries, getU32, getNum_append, getNum_fNum]
        simpa [ite_zero] using u32_toNat ht
      simp [answer4, h1, h2, status4_code4]
    | restore1 s a t =>
      have h1 : getNum 1 0 (fNum 1 (code4 s) ++ a.map authF ++ fNum 3 t) = code4 s := by simp [getNum_append, getNum_fNum, getNum_auths, ite_zero]
      have h2 : tries 3 (fNum 1 (code4 s) ++ a.map authF ++ fNum 3 t) = t := by
        simp only [tries, getU32, getNum_append, getNum_fNum, getNum_auths]
        simpa [ite_zero] using u32_toNat ht
      have hlen : ∀ x ∈ a, (enc (fBytes 1 x.1 ++ fF32 2 x.2)).length ≤ maxLen := by
        intro x hx
        have hm : (2, Raw.len (enc (fBytes 1 x.1 ++ fF32 2 x.2))) ∈ fNum 1 (code4 s) ++ a.map authF ++ fNum 3 t := by
          simp only [List.mem_append, List.mem_map]
          exact .inl (.inr ⟨x, hx, rfl⟩)
        have hm2 : (2, Raw.len (enc (fNum 1 (code4 s) ++ a.map authF ++ fNum 3 t))) ∈ answer4.fields (.restore1 s a t) := List.mem_singleton.mpr rfl
        exact Nat.le_trans (len_le_enc hm) (Nat.le_trans (len_le_enc hm2) hl)
      have h3 : auths (fNum 1 (code4 s) ++ a.map authF ++ fNum 3 t) = some a := by
        simp only [auths, List.foldlM_append, auths_num, Option.bind_eq_bind, Option.bind_some, auths_map hlen, List.nil_append]
      simp only [answer4, h1, h2, h3, status4_code4]
      rfl
    | restore2 s e =>
      have h1 : getNum 1 0 (fNum 1 (code4 s) ++ fBytes 2 e) = code4 s := by simp [getNum_append, getNum_fNum, getNum_fBytes, ite_zero]
      have h2 : getLen 2 [] (fNum 1 (code4 s) ++ fBytes 2 e) = e := by simp [getLen_append, getLen_fNum, getLen_fBytes, ite_nil]
      simp [answer4, h1, h2, status4_code4]
    | remove => rfl
    | query s t v w =>
      have h1 : getNum 1 0 (fNum 1 (code4 s) ++ fNum 2 t ++ fF32 3 v ++ fF32 4 w) = code4 s := by
        simp [getNum_append, getNum_fNum, getNum_fF32, ite_zero]
      have h2 : tries 2 (fNum 1 (code4 s) ++ fNum 2 t ++ fF32 3 v ++ fF32 4 w) = t := by
        simp only [tries, getU32, getNum_append, getNum_fNum, getNum_fF32]
        simpa [ite_zero] using u32_toNat ht
      have h3 : getF32 3 (fNum 1 (code4 s) ++ fNum 2 t ++ fF32 3 v ++ fF32 4 w) = v := by
        simp [getF32, getFix32_append, getFix32_fNum, getFix32_fF32, ite_f32]
      have h4 : getF32 4 (fNum 1 (code4 s) ++ fNum 2 t ++ fF32 3 v ++ fF32 4 w) = w := by
        simp [getF32, getFix32_append, getFix32_fNum, getFix32_fF32, ite_f32]
      simp only [answer4, h1, h2, h3, h4, status4_code4]
      rfl
    | rotateStart s =>
      have h1 : getNum 1 0 (fNum 1 (code4 s)) = code4 s := by simp [getNum_fNum, ite_zero]
      simp [answer4, h1, status4_code4]
    | rotateCommit s =>
      have h1 : getNum 1 0 (fNum 1 (code4 s)) = code4 s := by simp [getNum_fNum, ite_zero]
      simp [answer4, h1, status4_code4]
    | rotateRollback s =>
      have h1 : getNum 1 0 (fNum 1 (code4 s)) = code4 s := by simp [getNum_fNum, ite_zero]
      simp [answer4, h1, status4_code4]

theorem read5 {r : DB5.Resp} (hl : (answer5.encode r).length ≤ maxLen) : answer5.decode (answer5.encode r) = some r := by
  refine Answer.decode_encode ?_ ?_ hl
  · intro k gs ho
    cases r <;> simp only [answer5, Option.some.injEq, Prod.mk.injEq, reduceCtorEq] at ho
    all_goals obtain ⟨rfl, rfl⟩ := ho
    · rename_i s
      exact ⟨by decide, by decide, by decide, sound_num (hn := by cases s <;> decide)⟩
    · rename_i s o
      exact ⟨by decide, by decide, by decide, sound_append (sound_num (hn := by cases s <;> decide)) sound_bytes⟩
    · exact ⟨by decide, by decide, by decide, sound_nil⟩
  · cases r with
    | upload s => cases s <;> rfl
    | download s e =>
      have h1 : getNum 1 0 (fNum 1 (code5 s) ++ fBytes 2 e) = code5 s := by simp [getNum_append, getNum_fNum, getNum_fBytes, ite_zero]
      have h2 : getLen 2 [] (fNum 1 (code5 s) ++ fBytes 2 e) = e := by simp [getLen_append, getLen_fNum, getLen_fBytes, ite_nil]
      simp only [answer5, h1, h2]
      cases s <;> rfl
    | purge => rfl
    | none => rfl

end Svr.Wire
