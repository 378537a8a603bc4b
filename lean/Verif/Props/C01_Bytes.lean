import Verif.Lemmas.Bytes

/-!
C01. Every 16-, 32- and 64-bit unsigned value written to a happyml binary file is stored as its bytes from most
to least significant, and converting it back yields exactly the value written.
-/
namespace Verif.Bytes

/-- Specification: the number denoted by a byte list read most significant byte first. -/
def bigEndianValue (l : List (BitVec 8)) : Nat := l.foldl (fun acc b => acc * 256 + b.toNat) 0

/-- C01, 64 bit: eight bytes, big-endian value is the value, reading gives it back. -/
theorem C01_write64 (x : BitVec 64) :
    (write64 x).length = 8 ∧ bigEndianValue (write64 x) = x.toNat ∧ read64 (write64 x) = some x := by
  refine ⟨rfl, ?_, ?_⟩
  · rw [write64_eq]
    simp only [bigEndianValue, List.foldl, BitVec.extractLsb'_toNat, Nat.shiftRight_eq_div_pow]
    have := x.isLt
    omega
  · simp [read64, write64, ofMem64_mem64, portable64_invol]

/-- C01, 32 bit. -/
theorem C01_write32 (x : BitVec 32) :
    (write32 x).length = 4 ∧ bigEndianValue (write32 x) = x.toNat ∧ read32 (write32 x) = some x := by
  refine ⟨rfl, ?_, ?_⟩
  · rw [write32_eq]
    simp only [bigEndianValue, List.foldl, BitVec.extractLsb'_toNat, Nat.shiftRight_eq_div_pow]
    have := x.isLt
    omega
  · simp [read32, write32, ofMem32_mem32, portable32_invol]

/-- C01, 16 bit. -/
theorem C01_write16 (x : BitVec 16) :
    (write16 x).length = 2 ∧ bigEndianValue (write16 x) = x.toNat ∧ read16 (write16 x) = some x := by
  refine ⟨rfl, ?_, ?_⟩
  · rw [write16_eq]
    simp only [bigEndianValue, List.foldl, BitVec.extractLsb'_toNat, Nat.shiftRight_eq_div_pow]
    have := x.isLt
    omega
  · simp [read16, write16, ofMem16_mem16, portable16_invol]

/-- Distinct values have distinct files (64 bit). -/
theorem C01_write64_injective (x y : BitVec 64) (h : write64 x = write64 y) : x = y := by
  have hx := (C01_write64 x).2.2
  have hy := (C01_write64 y).2.2
  rw [h, hy] at hx
  exact (Option.some.inj hx).symm

example : write64 0x0102030405060708#64 = [1#8, 2#8, 3#8, 4#8, 5#8, 6#8, 7#8, 8#8] := by decide

end Verif.Bytes
