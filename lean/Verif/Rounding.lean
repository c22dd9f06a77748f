import Verif.HashTree
import Mathlib.Analysis.SpecialFunctions.Log.Basic
/-!
# Padding with rounded arithmetic: C140

`HashTree.lean` computes the number of padding leaves exactly.  The code computes it with floating point numbers.  Here is the same
builder with any arithmetic that rounds.
-/

namespace Rodkina
namespace HashTree

/-- Arithmetic that rounds: `math.Log` and `/` (libs/cryptography/domain/hashtrees/builder.go:96) are right up to a relative error of
`2^-50`, eight times what a correctly rounded operation on `float64` may be off. -/
structure Rounding where
  log : ℝ → ℝ
  div : ℝ → ℝ → ℝ
  log_close : ∀ x, 2 ≤ x → |log x - Real.log x| ≤ 2⁻¹ ^ 50 * Real.log x
  div_close : ∀ a b, 0 < a → 0 < b → |div a b - a / b| ≤ 2⁻¹ ^ 50 * (a / b)

/-- `math.Pow(2, math.Ceil(math.Log(n)/math.Log(2)))` (libs/cryptography/domain/hashtrees/builder.go:95-96). Simplification: `math.Ceil`,
powers of two with a small exponent, and the conversions of a length to a float and back are exact. -/
noncomputable def nextRounded (A : Rounding) (n : ℕ) : ℕ := 2 ^ ⌈A.div (A.log n) (A.log 2)⌉₊

/-- Padding with rounded arithmetic (libs/cryptography/domain/hashtrees/builder.go:91-106). -/
noncomputable def padRounded (A : Rounding) (S : Sha) (hashes : List Bytes) : List Bytes :=
  if isPowerOfTwo hashes.length then hashes
  else hashes ++ List.replicate (nextRounded A hashes.length - hashes.length) (Hash.fromBytes S [])

/-- `builder.Now` with rounded arithmetic (libs/cryptography/domain/hashtrees/builder.go:68-124). -/
noncomputable def buildRounded (A : Rounding) (S : Sha) (blocks : Option (List Bytes)) : Res Tree :=
  match blocks with
  | none => .err
  | some bs =>
    let bs := if bs.length ≤ 1 then bs ++ [[]] else bs
    let hashes := padRounded A S (bs.map (Hash.fromBytes S))
    if hashes.isEmpty then .err
    else leavesToHashTree S (hashes.map Leaf.base)

end HashTree
end Rodkina
