import Verif.Attest.Sgx
import Verif.Spec.Snp
import Verif.Spec.Base64

/-!
# What OpenEnclave's claims say

Of the model only the types of claims, times and JSON documents are used.
-/

namespace Svr.Spec.Sgx

open Svr.Attest.Sgx (Claim Time World)
open Svr.Attest.Tpm2Snp (Json)

/-- The value of the first claim of a name. -/
def Says (claims : List Claim) (name : List Char) (v : Bytes) : Prop :=
  ∃ pre post, claims = pre ++ ⟨ascii name, v⟩ :: post ∧ ∀ c ∈ pre, c.name ≠ ascii name

/-- Dates as OpenEnclave has them: years in full, months from 1. -/
def Date (W : World) (now : Int) (t : Time) : Prop :=
  ∃ y m, W.gmtime now = some ⟨y, m, t.day, t.hours, t.minutes, t.seconds⟩ ∧ t.year = 1900 + y ∧ t.month = 1 + m

/-- The number of the TCB evaluation data in a JSON document. -/
def TcbNumber (doc : Json) (n : Int) : Prop :=
  ∃ l, Member doc "tcbInfo".toList (.obj l) ∧ Member (.obj l) "tcbEvaluationDataNumber".toList (.num n) ∧ -2^31 ≤ n ∧ n < 2^31

/-- Eight bytes in big endian order. -/
def Be64 (b : Bytes) (n : Int) : Prop := b.length = 8 ∧ (number 256 (b.map (·.toNat)) : Int) = n % 2^64

end Svr.Spec.Sgx
