import Verif.Model.Crypto
import Verif.Model.Hash
/-!
# Model of `Hash` and `HashString` of `crypto/rsa/code.go`

SHA-512 is a parameter of type `Hash.Alg` (contract of `hash.Hash`), as in Model/Hash.
-/

namespace Verif.Crypto

/-- The loop of rsa/code.go:35-39 and 65-69, with `n` rounds left. -/
def saltLoop (A : Hash.Alg) (src : Bytes) : Nat → A.State → A.State
  | 0, h => h
  | n + 1, h =>
    let h := A.write h codeKey
    let h := A.write h src
    let h := A.write h codeKey
    saltLoop A src n h

/-- `Hash`, rsa/code.go:33-41. -/
def saltedHash (A : Hash.Alg) (src : Bytes) : Bytes := A.sum (saltLoop A src 5 A.init)

/-- `HashString`, rsa/code.go:63-71 (a string is its bytes). -/
def saltedHashString (A : Hash.Alg) (str : Bytes) : List Char := toHex (A.sum (saltLoop A str 5 A.init))

end Verif.Crypto
