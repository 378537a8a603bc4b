import Verif.Model.Bytes
import Mathlib.Tactic.IntervalCases

namespace Verif.Bytes

theorem portable64_invol (x : BitVec 64) : portable64 (portable64 x) = x := by
  apply BitVec.eq_of_getLsbD_eq
  intro i hi
  interval_cases i <;> simp [portable64]

theorem portable32_invol (x : BitVec 32) : portable32 (portable32 x) = x := by
  apply BitVec.eq_of_getLsbD_eq
  intro i hi
  interval_cases i <;> simp [portable32]

theorem portable16_invol (x : BitVec 16) : portable16 (portable16 x) = x := by
  apply BitVec.eq_of_getLsbD_eq
  intro i hi
  interval_cases i <;> simp [portable16]

theorem ofMem64_mem64 (x : BitVec 64) : ofMem64 (mem64 x) = some x := by
  simp only [ofMem64, mem64, Option.some.injEq]
  apply BitVec.eq_of_getLsbD_eq
  intro i hi
  interval_cases i <;> (simp only [BitVec.getLsbD_append]; simp)

theorem ofMem32_mem32 (x : BitVec 32) : ofMem32 (mem32 x) = some x := by
  simp only [ofMem32, mem32, Option.some.injEq]
  apply BitVec.eq_of_getLsbD_eq
  intro i hi
  interval_cases i <;> (simp only [BitVec.getLsbD_append]; simp)

theorem ofMem16_mem16 (x : BitVec 16) : ofMem16 (mem16 x) = some x := by
  simp only [ofMem16, mem16, Option.some.injEq]
  apply BitVec.eq_of_getLsbD_eq
  intro i hi
  interval_cases i <;> (simp only [BitVec.getLsbD_append]; simp)

theorem write64_eq (x : BitVec 64) : write64 x =
    [x.extractLsb' 56 8, x.extractLsb' 48 8, x.extractLsb' 40 8, x.extractLsb' 32 8,
     x.extractLsb' 24 8, x.extractLsb' 16 8, x.extractLsb' 8 8, x.extractLsb' 0 8] := by
  simp only [write64, mem64, List.cons.injEq, and_true]
  refine ⟨?_, ?_, ?_, ?_, ?_, ?_, ?_, ?_⟩ <;>
  · apply BitVec.eq_of_getLsbD_eq
    intro i hi
    interval_cases i <;> simp [portable64]

theorem write32_eq (x : BitVec 32) : write32 x =
    [x.extractLsb' 24 8, x.extractLsb' 16 8, x.extractLsb' 8 8, x.extractLsb' 0 8] := by
  simp only [write32, mem32, List.cons.injEq, and_true]
  refine ⟨?_, ?_, ?_, ?_⟩ <;>
  · apply BitVec.eq_of_getLsbD_eq
    intro i hi
    interval_cases i <;> simp [portable32]

theorem write16_eq (x : BitVec 16) : write16 x = [x.extractLsb' 8 8, x.extractLsb' 0 8] := by
  simp only [write16, mem16, List.cons.injEq, and_true]
  refine ⟨?_, ?_⟩ <;>
  · apply BitVec.eq_of_getLsbD_eq
    intro i hi
    interval_cases i <;> simp [portable16]

end Verif.Bytes
