import Verif.Model.Decimal

/-!
Numbers as people write them: no needless zeros, no exponent.
-/
namespace Verif.VariantText
open Verif.TextCodec Verif.Decimal

/-- The number `n / 10^k` written with `k` decimals. -/
def decimal (n k : Nat) : Str := dec (n / 10 ^ k) ++ if k = 0 then [] else 46 :: padded k (n % 10 ^ k)

/-- At most six significant digits, no trailing zero behind the point, and zero or at least 0.0001. -/
def Plain (n k : Nat) : Prop := n < 10 ^ 6 ∧ (k = 0 ∨ n % 10 ≠ 0) ∧ (k = 0 ∨ 10 ^ k ≤ n * 10 ^ 4)

instance (n k : Nat) : Decidable (Plain n k) := by unfold Plain; infer_instance

end Verif.VariantText
