import Verif.Model.FloatAdam
import Verif.Model.FloatMomentum
import Verif.Model.FloatLoss
import Verif.Model.SearchNetwork
import Verif.Model.FloatColumn
import Verif.Model.CreateDataset
import Verif.Model.Decimal
import Verif.Model.Dsl
import Verif.Model.SearchDraw
import Verif.Model.DataSet
import Verif.Model.ExitStrategy
import Verif.Model.HalfFloat

/-!
# Literals of the source

The bit patterns in the models are the floats nearest to the decimal literals of the source, and the bytes are those of its text literals. These theorems belong to no property;
they keep the models honest. So do the last ones, about the corners of the arithmetic of floats: ties are rounded to even, and what infinities give.
-/
namespace Verif.Literals
open Verif Double

/-- adam_optimizer.hpp:33-35, 94-95; sgdm_optimizer.hpp; the losses; 0.01f of the leaky relu; 0.2f of the search. -/
theorem literals_float :
    FloatAdam.beta1 = toFloat (9 / 10) ∧ FloatAdam.beta2 = toFloat (999 / 1000) ∧ FloatAdam.epsilon = toFloat (1 / 10 ^ 8) ∧ FloatAdam.smallest = toFloat (1 / 10 ^ 5) ∧
    FloatAdam.largest = toFloat (1 / 10) ∧ FloatMomentum.factor = toFloat (9 / 10) ∧ FloatLoss.epsilon = toFloat (1 / 10 ^ 8) ∧
    FloatActivation.minusOne = toFloat (-1) ∧ FloatActivation.half = toFloat (1 / 2) ∧ FloatActivation.two = toFloat 2 ∧ FloatActivation.hundredth = toFloat (1 / 100) ∧
    SearchNetwork.fifthF = toFloat (1 / 5) ∧ SearchNetwork.dropouts = [8 / 10, 5 / 10, 0, 7 / 10, 6 / 10, 4 / 10, 3 / 10].map toFloat ∧
    (⟨Dsl.five⟩ : F32) = toFloat 5 ∧ (⟨Dsl.twoPercent⟩ : F32) = toFloat (2 / 100) ∧ (⟨FloatArith.one⟩ : F32) = toFloat 1 := by
  decide +kernel

/-- The lists of hyperband_space.hpp:67-72. -/
theorem literals_space :
    SearchNetwork.widths = [1, 2, 5, 10, 7, 3, 17 / 10, 3 / 2, 7 / 5, 13 / 10, 6 / 5, 11 / 10, 20, 30].map toFloat ∧
    SearchNetwork.strengths = [1 / 50, 3 / 200, 1 / 100, 0, 1 / 200, 1 / 1000, 1 / 10000, 1 / 20, 1 / 25, 7 / 200, 3 / 100, 1 / 40, 1 / 10, 1 / 5].map toFloat ∧
    SearchDraw.learningRates = [1 / 1000, 7 / 10000, 1 / 2000, 3 / 10000, 1 / 10000, 7 / 100000, 1 / 20000, 3 / 100000, 1 / 200, 1 / 100, 3 / 1000].map toFloat ∧
    SearchDraw.biasLearningRates = [1 / 10000, 7 / 100000, 1 / 20000, 3 / 100000, 1 / 1000, 7 / 10000, 1 / 2000, 3 / 10000, 1 / 100, 1 / 200, 3 / 1000].map toFloat := by
  decide +kernel

/-- The bytes of a text without special characters. -/
def bytes (s : String) : List UInt8 := s.toList.map fun c => UInt8.ofNat c.toNat

theorem literals_text : CreateDataset.scheme = bytes "file://" ∧ CreateDataset.csv = bytes ".csv" ∧ Decimal.asStringBool true = bytes "true" ∧ Decimal.asStringBool false = bytes "false" := by
  decide +kernel

/-- A number in the middle between two integers is rounded to the even one. -/
theorem ties_double (n : Int) : Double.nearest (2 * n + 1 / 2) = 2 * n ∧ Double.nearest (2 * n + 1 + 1 / 2) = 2 * n + 2 := by
  have f1 : ⌊(2 * n + 1 / 2 : ℚ)⌋ = 2 * n := by rw [Int.floor_eq_iff]; push_cast; constructor <;> linarith
  have f2 : ⌊(2 * n + 1 + 1 / 2 : ℚ)⌋ = 2 * n + 1 := by rw [Int.floor_eq_iff]; push_cast; constructor <;> linarith
  constructor
  · unfold nearest
    rw [f1]
    push_cast
    rw [if_neg (by linarith), if_neg (by linarith), if_pos (by omega)]
  · unfold nearest
    rw [f2]
    push_cast
    rw [if_neg (by linarith), if_neg (by linarith), if_neg (by omega)]
    omega

/-- So are the odd numbers of records above 2^24. -/
theorem ties_count (k : Nat) (h : k < 2 ^ 22) : DataSet.natToFloat (2 ^ 24 + 4 * k + 1) = 2 ^ 24 + 4 * k ∧ DataSet.natToFloat (2 ^ 24 + 4 * k + 3) = 2 ^ 24 + 4 * k + 4 := by
  have hl : ∀ m, m < 2 ^ 24 → Nat.log2 (2 ^ 24 + m) = 24 := fun m hm => (Nat.log2_eq_iff (by omega)).2 ⟨by omega, by omega⟩
  have e1 := hl (4 * k + 1) (by omega)
  have e2 := hl (4 * k + 3) (by omega)
  rw [← Nat.add_assoc] at e1 e2
  unfold DataSet.natToFloat
  rw [e1, e2]
  constructor
  · show (if 2 * ((2 ^ 24 + 4 * k + 1) % 2) < 2 then _ else _) = _
    rw [if_neg (by omega), if_neg (by omega), if_pos (by omega)]
    omega
  · show (if 2 * ((2 ^ 24 + 4 * k + 3) % 2) < 2 then _ else _) = _
    rw [if_neg (by omega), if_neg (by omega), if_neg (by omega)]
    omega

/-- Infinities in the arithmetic of losses. -/
theorem specials {F : Type} [Field F] [LinearOrder F] (b c : Bool) (x : F) :
    ExitStrategy.Num.neg (.inf b : ExitStrategy.Num F) = .inf !b ∧ ExitStrategy.Num.add (.inf b : ExitStrategy.Num F) (.inf b) = .inf b ∧
    ExitStrategy.Num.add (.inf b : ExitStrategy.Num F) (.inf !b) = .nan ∧ ExitStrategy.Num.sub (.inf b : ExitStrategy.Num F) (.inf b) = .nan ∧
    ExitStrategy.Num.add (.inf b) (.fin x) = .inf b ∧ ExitStrategy.Num.add (.fin x) (.inf b) = .inf b ∧ ExitStrategy.Num.div (.inf b : ExitStrategy.Num F) (.inf c) = .nan ∧
    ExitStrategy.Num.div (.fin x) (.inf b) = .fin 0 ∧ (0 ≤ x → ExitStrategy.Num.div (.inf b) (.fin x) = .inf b) ∧ (x < 0 → ExitStrategy.Num.div (.inf b) (.fin x) = .inf !b) ∧
    (0 < x → ExitStrategy.Num.div (.fin x) (.fin 0) = .inf false) ∧ (x < 0 → ExitStrategy.Num.div (.fin x) (.fin 0) = .inf true) ∧ ExitStrategy.Num.div (.fin (0 : F)) (.fin 0) = .nan := by
  refine ⟨rfl, ?_, ?_, ?_, rfl, rfl, rfl, rfl, ?_, ?_, ?_, ?_, ?_⟩
  · simp [ExitStrategy.Num.add]
  · simp [ExitStrategy.Num.add]
  · simp [ExitStrategy.Num.sub, ExitStrategy.Num.neg, ExitStrategy.Num.add]
  · intro h; simp [ExitStrategy.Num.div, not_lt.2 h]
  · intro h; simp [ExitStrategy.Num.div, h]
  · intro h; simp [ExitStrategy.Num.div, h.ne', h.le]
  · intro h; simp [ExitStrategy.Num.div, h.ne, h]
  · simp [ExitStrategy.Num.div]

/-- quarter_float.hpp:12. -/
theorem literals_nan : HalfFloat.FLOAT_NEG_NAN = 0b11111111110000000000000000000000#32 := by decide +kernel

end Verif.Literals
