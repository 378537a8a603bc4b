import Verif.Lemmas.Pixel

/-!
C122: A picture kept in eight bits per point is the picture.
-/
namespace Verif.Pixel
open Verif.FloatBits Verif.FloatArith Verif.BinaryDataset Verif.Encoders

/-! ### One brightness, for every float -/

/-- A table of all 256 levels: numbers from zero to one, each a 255th up to rounding. -/
theorem load_table : ∀ k : Fin 256, IsNumber (div255 k.val) ∧ 0 ≤ value (div255 k.val) ∧ value (div255 k.val) ≤ 2 ^ 149 ∧
    255 * value (div255 k.val) ≤ k.val * 2 ^ 149 + 2 ^ 132 ∧ k.val * 2 ^ 149 ≤ 255 * value (div255 k.val) + 2 ^ 132 := by decide +kernel

theorem levels_kept : ∀ k : Fin 256, pixelStore (div255 k.val) = BitVec.ofNat 8 k.val := by decide +kernel

theorem store_load (k : BitVec 8) : pixelStore (pixelLoad k) = k := by
  have h := levels_kept ⟨k.toNat, k.isLt⟩
  simpa [pixelLoad] using h

theorem load_strict (a b : BitVec 8) (h : a.toNat < b.toNat) : value (pixelLoad a) < value (pixelLoad b) := by
  have ha := (load_table ⟨a.toNat, a.isLt⟩).2.2.2.1
  have hb := (load_table ⟨b.toNat, b.isLt⟩).2.2.2.2
  unfold pixelLoad
  simp only at ha hb
  have h' : ((a.toNat : Int) + 1) ≤ (b.toNat : Int) := by omega
  have e : (2 : Int) ^ 149 = 131072 * 2 ^ 132 := by decide +kernel
  have hp : (0 : Int) < 2 ^ 132 := by decide +kernel
  rw [e] at ha hb
  generalize (2 : Int) ^ 132 = z at *
  generalize (a.toNat : Int) = x at *
  generalize (b.toNat : Int) = y at *
  generalize value (div255 a.toNat) = p at *
  generalize value (div255 b.toNat) = q at *
  have h1 : (x + 1) * z ≤ y * z := mul_le_mul_of_nonneg_right h' hp.le
  have e1 : x * (131072 * z) = 131072 * (x * z) := by ring
  have e2 : y * (131072 * z) = 131072 * (y * z) := by ring
  have e3 : (x + 1) * z = x * z + z := by ring
  rw [e1] at ha
  rw [e2] at hb
  rw [e3] at h1
  generalize x * z = s at *
  generalize y * z = t at *
  omega

theorem load_mono (a b : BitVec 8) (h : a.toNat ≤ b.toNat) : value (pixelLoad a) ≤ value (pixelLoad b) := by
  rcases Nat.lt_or_eq_of_le h with h | h
  · exact (load_strict a b h).le
  · rw [BitVec.eq_of_toNat_eq h]

/-- Whatever was stored, a number from zero to one is read. -/
theorem C122_range (v : BitVec 32) : IsNumber (pixelConv v) ∧ 0 ≤ value (pixelConv v) ∧ value (pixelConv v) ≤ 2 ^ 149 := by
  have h := load_table ⟨(pixelStore v).toNat, (pixelStore v).isLt⟩
  exact ⟨h.1, h.2.1, h.2.2.1⟩

/-- What is not a number, and what is not above zero, is black; what is not below one is white. -/
theorem C122_outside (v : BitVec 32) :
    (¬ IsNumber v → pixelConv v = 0#32) ∧ (IsNumber v → value v ≤ 0 → pixelConv v = 0#32) ∧
      (IsNumber v → 2 ^ 149 ≤ value v → pixelConv v = one) := by
  refine ⟨fun h => ?_, fun _ h => ?_, fun hn h => ?_⟩
  · unfold pixelConv
    rw [store_nan v (by simpa [IsNumber] using h)]
    decide +kernel
  · unfold pixelConv
    rw [store_low v h]
    decide +kernel
  · unfold pixelConv
    rcases lt_or_eq_of_le h with h | h
    · rw [store_high v hn h]
      decide +kernel
    · have h1 := store_inside v hn (by rw [← h]; decide) (le_of_eq h.symm)
      have h2 : (value v).toNat = 2 ^ 149 := by rw [← h]; decide +kernel
      rw [h2, level_one] at h1
      have h3 : pixelStore v = 255#8 := BitVec.eq_of_toNat_eq h1
      rw [h3]
      decide +kernel

example : (¬ IsNumber 0x7FC00000#32) ∧ (IsNumber 0xBF000000#32 ∧ value 0xBF000000#32 ≤ 0) ∧
    (IsNumber 0x7F800000#32 ∧ 2 ^ 149 ≤ value 0x7F800000#32) := by decide +kernel

/-- Between zero and one a brightness is lowered by at most one step. -/
theorem C122_close (v : BitVec 32) (hn : IsNumber v) (h0 : 0 ≤ value v) (h1 : value v ≤ 2 ^ 149) : Close v (pixelConv v) := by
  have hs := store_inside v hn h0 h1
  have ht := load_table ⟨(pixelStore v).toNat, (pixelStore v).isLt⟩
  have hu : (value v).toNat ≤ 2 ^ 149 := by
    have e : (2 : Int) ^ 149 = ((2 ^ 149 : Nat) : Int) := by norm_cast
    rw [e] at h1
    generalize (2 : Nat) ^ 149 = z at *
    omega
  obtain ⟨hl1, hl2⟩ := level_spec (value v).toNat hu
  rw [← hs] at hl1 hl2
  obtain ⟨_, _, _, hb1, hb2⟩ := ht
  unfold Close pixelConv pixelLoad
  simp only at hb1 hb2
  have e : value v = ((value v).toNat : Int) := (Int.toNat_of_nonneg h0).symm
  have c1 : ((value v).toNat : Int) * 255 < (((pixelStore v).toNat : Int) + 1) * 2 ^ 149 := by exact_mod_cast hl1
  have c2 : ((pixelStore v).toNat : Int) * 2 ^ 149 ≤ ((value v).toNat : Int) * 255 + 2 ^ 132 := by exact_mod_cast hl2
  rw [← e] at c1 c2
  have e3 : (2 : Int) ^ 133 = 2 * 2 ^ 132 := by decide +kernel
  rw [e3]
  have e4 : (((pixelStore v).toNat : Int) + 1) * 2 ^ 149 = ((pixelStore v).toNat : Int) * 2 ^ 149 + 2 ^ 149 := by ring
  rw [e4] at c1
  have hp : (0 : Int) < 2 ^ 132 := by decide +kernel
  generalize ((pixelStore v).toNat : Int) * 2 ^ 149 = a at *
  generalize (2 : Int) ^ 132 = z at *
  generalize (2 : Int) ^ 149 = y at *
  generalize value (div255 (pixelStore v).toNat) = p at *
  generalize value v = q at *
  constructor <;> omega

/-- 0.7 -/
example : IsNumber 0x3F333333#32 ∧ 0 ≤ value 0x3F333333#32 ∧ value 0x3F333333#32 ≤ 2 ^ 149 ∧ pixelConv 0x3F333333#32 ≠ 0x3F333333#32 := by
  decide +kernel

/-- What is brighter is never stored darker. -/
theorem C122_order (a b : BitVec 32) (ha : IsNumber a) (hb : IsNumber b) (h : value a ≤ value b) :
    value (pixelConv a) ≤ value (pixelConv b) := by
  by_cases h0 : value a ≤ 0
  · have := (C122_outside a).2.1 ha h0
    rw [this, value_zero]
    exact (C122_range b).2.1
  · by_cases h1 : 2 ^ 149 ≤ value b
    · have := (C122_outside b).2.2 hb h1
      rw [this, value_one]
      exact (C122_range a).2.2
    · have sa := store_inside a ha (by omega) (by omega)
      have sb := store_inside b hb (by omega) (by omega)
      refine load_mono _ _ ?_
      rw [sa, sb]
      refine level_mono _ _ ?_ (Int.toNat_le_toNat h)
      have e : (2 : Int) ^ 149 = ((2 ^ 149 : Nat) : Int) := by norm_cast
      rw [e] at h1
      generalize (2 : Nat) ^ 149 = z at *
      omega

example : IsNumber 0x3F333333#32 ∧ IsNumber 0x3F666666#32 ∧ value 0x3F333333#32 ≤ value 0x3F666666#32 ∧
    value (pixelConv 0x3F333333#32) < value (pixelConv 0x3F666666#32) := by decide +kernel

/-- The 256 levels are different, ascending, and kept exactly. -/
theorem C122_levels : (∀ k, k < 256 → pixelConv (div255 k) = div255 k) ∧
    ∀ j k, j < k → k < 256 → value (div255 j) < value (div255 k) := by
  constructor
  · intro k hk
    have h := levels_kept ⟨k, hk⟩
    simp only at h
    unfold pixelConv pixelLoad
    rw [h, BitVec.toNat_ofNat, Nat.mod_eq_of_lt hk]
  · intro j k hj hk
    have h := load_strict (BitVec.ofNat 8 j) (BitVec.ofNat 8 k) (by
      rw [BitVec.toNat_ofNat, BitVec.toNat_ofNat, Nat.mod_eq_of_lt hk, Nat.mod_eq_of_lt (by omega)]; exact hj)
    unfold pixelLoad at h
    rwa [BitVec.toNat_ofNat, BitVec.toNat_ofNat, Nat.mod_eq_of_lt hk, Nat.mod_eq_of_lt (by omega)] at h

/-- What was read can be stored again, any number of times, without loss. -/
theorem C122_again (v : BitVec 32) : pixelConv (pixelConv v) = pixelConv v := by
  show pixelLoad (pixelStore (pixelLoad (pixelStore v))) = pixelLoad (pixelStore v)
  rw [store_load]

/-- It is not the nearest level that is stored: 0.999 becomes 254/255, although 1 is nearer. -/
theorem C122_nearest_violated : ∃ v, IsNumber v ∧ 0 ≤ value v ∧ value v ≤ 2 ^ 149 ∧
    ∃ k, k < 256 ∧ (value (div255 k) - value v).natAbs < (value (pixelConv v) - value v).natAbs :=
  ⟨0x3F7FBE77#32, by decide +kernel, by decide +kernel, by decide +kernel, 255, by decide, by decide +kernel⟩

/-! ### Whole tensors -/

/-- A tensor made from another has its shape, and its elements as eight bits keep them. -/
theorem C122_tensor (t : Tensor (BitVec 32)) (hr : 0 < t.rows) (hc : 0 < t.chans) :
    (ofTensor t).tensor.Same { t with get := fun r c k => pixelConv (t.get r c k) } := by
  obtain ⟨m, hm⟩ : ∃ m, t.chans = m + 1 := ⟨t.chans - 1, by omega⟩
  obtain ⟨n, hn⟩ : ∃ n, t.rows = n + 1 := ⟨t.rows - 1, by omega⟩
  have h1 : (ofTensor t).tensor.rows = t.rows := by
    simp [Bytes.tensor, ofTensor, hm, List.range_succ_eq_map]
  have h2 : (ofTensor t).tensor.cols = t.cols := by
    simp [Bytes.tensor, ofTensor, hm, hn, List.range_succ_eq_map]
  have h3 : (ofTensor t).tensor.chans = t.chans := by
    simp [Bytes.tensor, ofTensor]
  refine ⟨h1, h2, h3, ?_⟩
  intro r c k hr hc hk
  rw [h1] at hr
  rw [h2] at hc
  rw [h3] at hk
  simp [Bytes.tensor, ofTensor, hr, hc, hk, pixelConv]

example : (ofTensor ⟨1, 2, 1, fun _ c _ => if c = 0 then 0x3F333333#32 else 0xC0000000#32⟩).tensor.get 0 0 0 = pixelConv 0x3F333333#32 ∧
    (0 : Nat) < 1 := by decide +kernel

theorem C122_vector (values : List (BitVec 32)) :
    (ofVector values).tensor.Same ⟨1, values.length, 1, fun _ c _ => pixelConv (values[c]?.getD 0#32)⟩ := by
  refine ⟨rfl, by simp [ofVector, Bytes.tensor], rfl, ?_⟩
  intro r c k hr hc hk
  have hr : r = 0 := by simp [ofVector, Bytes.tensor] at hr; omega
  have hk : k = 0 := by simp [ofVector, Bytes.tensor] at hk; omega
  have hc : c < values.length := by simpa [ofVector, Bytes.tensor] using hc
  subst hr hk
  simp [ofVector, Bytes.tensor, hc, pixelConv]

/-- Nested vectors: the first channel and its first row fix the shape; what is given is kept, what is missing is black;
vectors that do not fit are refused. -/
theorem C122_nested (values : Data) (h1 : 0 < values.tensor.chans) (h2 : 0 < values.tensor.rows) :
    (Fits values → ∃ d, ofNested values = .ok d ∧
        d.tensor.Same { values.tensor with get := fun r c k => pixelConv (given values r c k) }) ∧
      (¬ Fits values → ofNested values = .throws) := by
  obtain ⟨ch, rest, rfl⟩ : ∃ ch rest, values = ch :: rest := by
    cases values with
    | nil => simp [Data.tensor] at h1
    | cons ch rest => exact ⟨ch, rest, rfl⟩
  obtain ⟨row, rows, rfl⟩ : ∃ row rows, ch = row :: rows := by
    cases ch with
    | nil => simp [Data.tensor] at h2
    | cons row rows => exact ⟨row, rows, rfl⟩
  constructor
  · intro hf
    obtain ⟨d, hd, hs⟩ := nested_ok (rows.length + 1) row.length ((row :: rows) :: rest) hf
    refine ⟨d, hd, ?_⟩
    obtain ⟨s1, s2, s3⟩ := hs
    have hd0 : ∃ ch' ds, d = ch' :: ds := by
      cases d with
      | nil => simp at s1
      | cons a b => exact ⟨a, b, rfl⟩
    obtain ⟨ch', ds, rfl⟩ := hd0
    have hch := s2 ch' List.mem_cons_self
    obtain ⟨row', rows', rfl⟩ : ∃ row' rows', ch' = row' :: rows' := by
      cases ch' with
      | nil => simp at hch
      | cons a b => exact ⟨a, b, rfl⟩
    have hrow := hch.2 row' List.mem_cons_self
    refine ⟨by simpa [Bytes.tensor, Data.tensor] using hch.1, by simpa [Bytes.tensor, Data.tensor] using hrow,
      by simpa [Bytes.tensor, Data.tensor] using s1, ?_⟩
    intro r c k hr hc hk
    refine congrArg pixelLoad (s3 r c k ?_ ?_ ?_)
    · have h : r < (row' :: rows').length := hr
      rw [hch.1] at h; exact h
    · have h : c < row'.length := hc
      rw [hrow] at h; exact h
    · have h : k < ((row' :: rows') :: ds).length := hk
      rw [s1] at h; exact h
  · intro hf
    exact nested_throws (rows.length + 1) row.length ((row :: rows) :: rest) hf

example : Fits [[[one, one], [one]]] ∧ ¬ Fits [[[one], [one, one]]] := by
  constructor
  · intro ch hch
    simp only [List.mem_singleton] at hch
    subst hch
    simp [Data.tensor]
  · intro h
    have := (h _ (List.mem_singleton.mpr rfl)).2 [one, one] (by simp)
    simp [Data.tensor] at this

end Verif.Pixel
