import Mathlib.Algebra.Module.Basic
import Mathlib.Algebra.BigOperators.Group.Finset.Basic
import Verif.Session4

/-!
# What the group operations of SVR4 compute

The primitives of `DB4.Prims4` are those of libsodium on encodings. `Impl` says that they compute in a group `G` over a field `F`: what canonical
scalars and valid points stand for, and that an operation that gives a result gives the right one, and never the neutral element where libsodium
refuses it (enclave/ristretto/ristretto.cc:24-76). `Full` says that multiplication and addition refuse nothing else. Both are facts about libsodium and
ristretto255; they are hypotheses here and not proved.
-/

namespace Svr.Spec4
open DB4 (Prims4 okPoint okScalar)

/-- The operations are right. -/
structure Impl (P : Prims4) (F G : Type) [Field F] [AddCommGroup G] [Module F G] where
  sc : Bytes → F
  pt : Bytes → G
  base : G
  sc_inj : ∀ {a b}, okScalar P a = true → okScalar P b = true → sc a = sc b → a = b
  pt_inj : ∀ {p q}, okPoint P p = true → okPoint P q = true → pt p = pt q → p = q
  smul : ∀ {a p q}, okScalar P a = true → okPoint P p = true → P.smul a p = some q → okPoint P q = true ∧ pt q = sc a • pt p ∧ pt q ≠ 0
  padd : ∀ {p q r}, okPoint P p = true → okPoint P q = true → P.padd p q = some r → okPoint P r = true ∧ pt r = pt p + pt q
  mulBase : ∀ {a q}, okScalar P a = true → P.mulBase a = some q → okPoint P q = true ∧ pt q = sc a • base ∧ pt q ≠ 0
  sadd : ∀ {a b}, okScalar P a = true → okScalar P b = true → okScalar P (P.sadd a b) = true ∧ sc (P.sadd a b) = sc a + sc b
  hashToPoint : ∀ {a b m}, P.hashToPoint a b = some m → okPoint P m = true
  challenge : ∀ p b h, okScalar P (P.challenge p b h) = true
  zeroScalar : sc (zeros 32) = 0
  zeroPoint : okPoint P (zeros 32) = true ∧ pt (zeros 32) = 0

/-- The operations give results. -/
structure Full (P : Prims4) {F G : Type} [Field F] [AddCommGroup G] [Module F G] (I : Impl P F G) : Prop where
  smul : ∀ {a p}, okScalar P a = true → okPoint P p = true → I.sc a • I.pt p ≠ 0 → ∃ q, P.smul a p = some q
  padd : ∀ {p q}, okPoint P p = true → okPoint P q = true → ∃ r, P.padd p q = some r
  mulBase : ∀ {a}, okScalar P a = true → I.sc a • I.base ≠ 0 → ∃ q, P.mulBase a = some q

end Svr.Spec4
