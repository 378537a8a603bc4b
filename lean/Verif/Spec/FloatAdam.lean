import Verif.Spec.FloatActivation
import Verif.Model.FloatAdam

/-!
What is asked of the `adam` optimizer on 32-bit floats.
-/
namespace Verif.FloatAdam
open Verif FloatActivation

/-- Powers of two as floats. -/
def two62 : F32 := ⟨0x5E800000#32⟩
def two64 : F32 := ⟨0x5F800000#32⟩
def two120 : F32 := ⟨0x7B800000#32⟩
def two124 : F32 := ⟨0x7D800000#32⟩

/-- `std::abs(x) <= limit` -/
def AtMost (limit x : F32) : Prop := F32.ge limit x.abs = true

instance (l x : F32) : Decidable (AtMost l x) := by unfold AtMost; infer_instance

/-- What is assumed about the C library: roots of numbers that are not negative are such numbers, the root of infinity is infinity; squares are not negative,
grow with the absolute value, and are right for two powers of two. (Nothing is assumed about accuracy.) -/
structure Sound (lib : Roots) : Prop where
  sqrt_range : ∀ x, Within 0 inf x → Within 0 inf (lib.sqrt x)
  sqrt_inf : lib.sqrt inf = inf
  square_range : ∀ x, Number x → Within 0 inf (lib.pow x two)
  square_order : ∀ x y, F32.ge y.abs x.abs = true → F32.ge (lib.pow y two) (lib.pow x two) = true
  square_62 : lib.pow two62 two = two124
  square_64 : lib.pow two64 two = inf

/-- The same number (`a == b` in C++, both not NaN). -/
def Equal (a b : F32) : Prop := F32.ge a b = true ∧ F32.ge b a = true

instance (a b : F32) : Decidable (Equal a b) := by unfold Equal; infer_instance

end Verif.FloatAdam
