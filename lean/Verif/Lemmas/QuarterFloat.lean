import Verif.Model.QuarterFloat
import Verif.Lemmas.HalfFloat
import Mathlib.Tactic.IntervalCases

namespace Verif.QuarterFloat
open Verif.FloatBits

theorem field_exp (x : BitVec 32) : ((x &&& 0x7F800000#32) >>> 23).toNat = expo x := by
  have h : ((x &&& 0x7F800000#32) >>> 23) = (x.extractLsb' 23 8).setWidth 32 := by
    apply BitVec.eq_of_getLsbD_eq
    intro i hi
    interval_cases i <;> simp
  rw [h]
  simp only [BitVec.toNat_setWidth, BitVec.extractLsb'_toNat, Nat.shiftRight_eq_div_pow, expo]
  omega

theorem field_m3 (x : BitVec 32) : ((x &&& 0x00700000#32) >>> 20).toNat = frac x / 2 ^ 20 := by
  have h : ((x &&& 0x00700000#32) >>> 20) = (x.extractLsb' 20 3).setWidth 32 := by
    apply BitVec.eq_of_getLsbD_eq
    intro i hi
    interval_cases i <;> simp
  rw [h]
  simp only [BitVec.toNat_setWidth, BitVec.extractLsb'_toNat, Nat.shiftRight_eq_div_pow, frac]
  omega

theorem field_b19 (x : BitVec 32) : ((x &&& 0x000FFFFF#32) >>> 19).toNat = frac x / 2 ^ 19 % 2 := by
  have h : ((x &&& 0x000FFFFF#32) >>> 19) = (x.extractLsb' 19 1).setWidth 32 := by
    apply BitVec.eq_of_getLsbD_eq
    intro i hi
    interval_cases i <;> simp
  rw [h]
  simp only [BitVec.toNat_setWidth, BitVec.extractLsb'_toNat, Nat.shiftRight_eq_div_pow, frac]
  omega

/-- sign bit as a number -/
def sgn (x : BitVec 32) : Nat := if neg x then 1 else 0

theorem field_sign (x : BitVec 32) : (x >>> 31).toNat = sgn x := by
  have := x.isLt
  simp only [BitVec.toNat_ushiftRight, Nat.shiftRight_eq_div_pow, sgn, neg, decide_eq_true_eq]
  split <;> omega

/-- The mantissa after rounding. -/
def rnd (f : Nat) : Nat := f / 2 ^ 20 + (if f / 2 ^ 20 < 7 ∧ f / 2 ^ 19 % 2 = 1 then 1 else 0)

theorem rnd_le (f : Nat) (h : f < 2 ^ 23) : rnd f ≤ 7 := by
  unfold rnd; split <;> omega

/-- The encoder on sign/exponent/fraction, as a number. -/
def encN (b : Nat) (nz : Prop) [Decidable nz] (s e f : Nat) : Nat :=
  let p := if 142 - b ≤ e then s * 128 + 0x77 else if e < 127 - b then s * 128
    else s * 128 + (e - (127 - b)) * 8 + rnd f
  if nz ∧ p = 0 ∧ 115 ≤ e then 128 else p

theorem or_fields : ∀ s < 2, ∀ e < 16, ∀ m < 8,
    ((BitVec.ofNat 32 s <<< 7) ||| (BitVec.ofNat 32 e <<< 3) ||| (BitVec.ofNat 32 m &&& 0x7#32))
      = BitVec.ofNat 32 (s * 128 + e * 8 + m) := by
  decide +kernel

theorem b2u_true : b2u true = 1#32 := rfl
theorem b2u_false : b2u false = 0#32 := rfl

theorem ofNat_toNat_eq {n : Nat} (v : BitVec 32) (h : v.toNat = n) : v = BitVec.ofNat 32 n := by
  rw [← h]; simp

theorem encode_toNat (x : BitVec 32) (b : Nat) (hb1 : 1 ≤ b) (hb : b ≤ 15) :
    (floatToQuarter x b).toNat =
      if x = FLOAT_NEG_NAN ∨ x = FLOAT_POS_NAN then 255 else if x = FLOAT_INF then 0x78
      else if x = FLOAT_NEG_INF then 0xF8 else encN b (x ≠ 0) (sgn x) (expo x) (frac x) := by
  by_cases h1 : x = FLOAT_NEG_NAN
  · subst h1; interval_cases b <;> decide
  by_cases h2 : x = FLOAT_POS_NAN
  · subst h2; interval_cases b <;> decide
  by_cases h3 : x = FLOAT_INF
  · subst h3; interval_cases b <;> decide
  by_cases h4 : x = FLOAT_NEG_INF
  · subst h4; interval_cases b <;> decide
  simp only [h1, h2, h3, h4, or_self, if_false]
  have heb : effBias (b : Int) = b := by unfold effBias; split <;> omega
  have hadj : BitVec.ofInt 32 (127 - (b : Int)) = BitVec.ofNat 32 (127 - b) := by
    have : (127 - (b : Int)) = ((127 - b : Nat) : Int) := by omega
    rw [this, BitVec.ofInt_natCast]
  have hE := ofNat_toNat_eq _ (field_exp x)
  have hM := ofNat_toNat_eq _ (field_m3 x)
  have hX := ofNat_toNat_eq _ (field_b19 x)
  have hS := ofNat_toNat_eq _ (field_sign x)
  have hsl : sgn x < 2 := by unfold sgn; split <;> omega
  have hel : expo x < 256 := Nat.mod_lt _ (by decide)
  have hfl : frac x < 2 ^ 23 := Nat.mod_lt _ (by decide)
  have hnz : (x != 0#32) = decide (x ≠ 0) := by
    rw [bne, Bool.beq_eq_decide_eq, ← decide_not]; rfl
  unfold floatToQuarter
  simp only [heb, hadj, hE, hM, hX, hS, hnz]
  generalize hs : sgn x = s at *
  generalize he : expo x = e at *
  generalize hf : frac x = f at *
  have e1 : (BitVec.ofNat 32 e).toNat = e := by simp; omega
  have a1 : (BitVec.ofNat 32 (127 - b)).toNat = 127 - b := by simp; omega
  have hct : ((BitVec.ofNat 32 (127 - b) + 15#32).ule (BitVec.ofNat 32 e)) = decide (142 - b ≤ e) := by
    simp only [BitVec.ule, BitVec.toNat_add, e1, a1]
    congr 1
    simp
    omega
  have hcb : ((BitVec.ofNat 32 e).ult (BitVec.ofNat 32 (127 - b))) = decide (e < 127 - b) := by
    simp only [BitVec.ult, e1, a1]
  have hadjE : ((BitVec.ofNat 32 e).toInt - (BitVec.ofNat 32 (127 - b)).toInt) = (e : Int) - (127 - b : Nat) := by
    rw [BitVec.toInt_eq_toNat_cond, BitVec.toInt_eq_toNat_cond, e1, a1]
    rw [if_pos (by omega), if_pos (by omega)]
  have hrnd : (BitVec.ofNat 32 (f / 2 ^ 20) +
      b2u ((BitVec.ofNat 32 (f / 2 ^ 20)).ult 7#32 && (0#32).ult (BitVec.ofNat 32 (f / 2 ^ 19 % 2))) * 1#32)
      = BitVec.ofNat 32 (rnd f) := by
    have t1 : (BitVec.ofNat 32 (f / 2 ^ 20)).toNat = f / 2 ^ 20 := by simp; omega
    have t2 : (BitVec.ofNat 32 (f / 2 ^ 19 % 2)).toNat = f / 2 ^ 19 % 2 := by simp; omega
    simp only [BitVec.ult, t1, t2]
    unfold rnd
    generalize f / 2 ^ 20 = g at *
    have h01 : f / 2 ^ 19 % 2 = 0 ∨ f / 2 ^ 19 % 2 = 1 := by omega
    generalize f / 2 ^ 19 % 2 = k at *
    by_cases c1 : g < 7
    · rcases h01 with c2 | c2
      · subst c2; simp [b2u]
      · subst c2; simp [b2u, c1, BitVec.ofNat_add]
    · simp [b2u, c1]
  have hthr : decide ((e : Int) - (127 - b : Nat) ≥ -12 + b) = decide (115 ≤ e) := by
    rw [decide_eq_decide]; omega
  simp only [hct, hcb, hadjE, hrnd, hthr]
  have hb1' : (x == FLOAT_NEG_NAN) = false := by simpa using h1
  have hb2' : (x == FLOAT_POS_NAN) = false := by simpa using h2
  have hb3' : (x == FLOAT_INF) = false := by simpa using h3
  have hb4' : (x == FLOAT_NEG_INF) = false := by simpa using h4
  simp only [hb1', hb2', hb3', hb4', bne, Bool.or_self, Bool.not_false, Bool.and_self, b2u_true, b2u_false,
    BitVec.zero_mul, BitVec.one_mul, BitVec.zero_add]
  -- the prepped bits
  have key : ∀ E M : Nat, E < 15 → M < 8 → ∀ (ex mx : BitVec 32), ex = BitVec.ofNat 32 E → mx = BitVec.ofNat 32 M →
      ((BitVec.ofNat 32 s <<< 7) |||
        ((b2u (ex.ult 15#32) * ex + b2u (ex == 15#32) * 14#32) <<< 3) ||| (mx &&& 7#32))
      = BitVec.ofNat 32 (s * 128 + E * 8 + M) := by
    intro E M hE' hM' ex mx hex hmx
    subst hex hmx
    have q1 : (b2u ((BitVec.ofNat 32 E).ult 15#32) * BitVec.ofNat 32 E + b2u (BitVec.ofNat 32 E == 15#32) * 14#32)
        = BitVec.ofNat 32 E := by
      interval_cases E <;> decide
    rw [q1, or_fields s hsl E (by omega) M hM']
  have fin : ∀ p : Nat, p < 256 → ∀ v : BitVec 32, v = BitVec.ofNat 32 p → ∀ nz t : Bool,
      (b2u (nz && (v == 0#32 && t)) * 128#32 + b2u (!(nz && (v == 0#32 && t))) * v).setWidth 8
        = BitVec.ofNat 8 (if nz = true ∧ p = 0 ∧ t = true then 128 else p) := by
    intro p hp v hv nz t
    subst hv
    have hz : (BitVec.ofNat 32 p == 0#32) = decide (p = 0) := by
      rw [Bool.beq_eq_decide_eq, decide_eq_decide, ← BitVec.toNat_inj]
      simp only [BitVec.toNat_ofNat]; omega
    rw [hz]
    by_cases hp0 : p = 0
    · subst hp0; cases nz <;> cases t <;> decide
    · have hx : (nz && (decide (p = 0) && t)) = false := by simp [hp0]
      rw [hx]
      simp only [b2u_false, b2u_true, Bool.not_false, BitVec.zero_mul, BitVec.one_mul, BitVec.zero_add, hp0,
        false_and, and_false, if_false]
      apply BitVec.eq_of_toNat_eq
      simp only [BitVec.toNat_setWidth, BitVec.toNat_ofNat]; omega
  have hfin := rnd_le f hfl
  unfold encN
  by_cases ct : 142 - b ≤ e
  · have cb : ¬ e < 127 - b := by omega
    simp only [ct, cb, decide_true, decide_false, Bool.or_false, Bool.not_true, b2u_true, b2u_false,
      BitVec.zero_mul, BitVec.one_mul, BitVec.zero_add, if_true]
    rw [fin (s * 128 + 0x77) (by omega) _ (key 14 7 (by omega) (by omega) 14#32 7#32 rfl rfl)]
    simp only [decide_eq_true_eq, BitVec.toNat_ofNat]
    split <;> omega
  · by_cases cb : e < 127 - b
    · simp only [ct, cb, decide_true, decide_false, Bool.or_true, Bool.not_true, b2u_true, b2u_false,
        BitVec.zero_mul, BitVec.one_mul, BitVec.zero_add, if_true, if_false]
      rw [fin (s * 128) (by omega) _ (by simpa using key 0 0 (by omega) (by omega) 0#32 0#32 rfl rfl)]
      simp only [decide_eq_true_eq, BitVec.toNat_ofNat]
      split <;> omega
    · simp only [ct, cb, decide_false, Bool.or_false, Bool.not_false, b2u_true, b2u_false,
        BitVec.zero_mul, BitVec.one_mul, BitVec.add_zero, if_false]
      have hex : BitVec.ofInt 32 ((e : Int) - (127 - b : Nat)) = BitVec.ofNat 32 (e - (127 - b)) := by
        have : ((e : Int) - (127 - b : Nat)) = ((e - (127 - b) : Nat) : Int) := by omega
        rw [this, BitVec.ofInt_natCast]
      rw [hex, fin (s * 128 + (e - (127 - b)) * 8 + rnd f) (by omega) _
        (key (e - (127 - b)) (rnd f) (by omega) (by omega) _ _ rfl rfl)]
      simp only [decide_eq_true_eq, BitVec.toNat_ofNat]
      split <;> omega

/-- The decoder, as a number, for codes other than the special ones. -/
def decN (b q : Nat) : Nat :=
  if q = 128 then (126 - b) * 2 ^ 23 + 2
  else (q / 128) * 2 ^ 31 + (if q % 128 = 0 then 0 else q % 128 / 8 + (127 - b)) * 2 ^ 23 + (q % 8) * 2 ^ 20

theorem decode_table : ∀ b : Fin 16, 1 ≤ b.val → ∀ q : Fin 256, q.val ≠ 255 → q.val ≠ 0x78 → q.val ≠ 0xF8 →
    (quarterToFloat (BitVec.ofNat 8 q.val) (b.val : Int)).toNat = decN b.val q.val := by
  decide +kernel

theorem decode_toNat (q : BitVec 8) (b : Nat) (hb1 : 1 ≤ b) (hb : b ≤ 15)
    (h1 : q.toNat ≠ 255) (h2 : q.toNat ≠ 0x78) (h3 : q.toNat ≠ 0xF8) :
    (quarterToFloat q (b : Int)).toNat = decN b q.toNat := by
  have := decode_table ⟨b, by omega⟩ hb1 ⟨q.toNat, q.isLt⟩ h1 h2 h3
  simpa using this

/-- The encoder's output, case by case. -/
theorem encN_cases (b : Nat) (nz : Prop) [Decidable nz] (s e f : Nat) (hs : s < 2) (hf : f < 2 ^ 23)
    (hb1 : 1 ≤ b) (hb : b ≤ 15) :
    (142 - b ≤ e ∧ encN b nz s e f = s * 128 + 119) ∨
    (e < 127 - b ∧ encN b nz s e f = s * 128) ∨
    (e < 127 - b ∧ s = 0 ∧ nz ∧ 115 ≤ e ∧ encN b nz s e f = 128) ∨
    (127 - b ≤ e ∧ e < 142 - b ∧ (e = 127 - b → s = 0 → nz → e < 115 ∨ 1 ≤ rnd f) ∧
      encN b nz s e f = s * 128 + (e - (127 - b)) * 8 + rnd f) ∨
    (127 - b = e ∧ s = 0 ∧ nz ∧ 115 ≤ e ∧ rnd f = 0 ∧ encN b nz s e f = 128) := by
  have hr := rnd_le f hf
  unfold encN
  dsimp only
  by_cases ct : 142 - b ≤ e
  · left
    rw [if_pos ct]
    refine ⟨ct, ?_⟩
    rw [if_neg (by omega)]
  · rw [if_neg ct]
    by_cases cb : e < 127 - b
    · rw [if_pos cb]
      by_cases c : nz ∧ s * 128 = 0 ∧ 115 ≤ e
      · right; right; left
        rw [if_pos c]
        exact ⟨cb, by omega, c.1, c.2.2, rfl⟩
      · right; left
        rw [if_neg c]
        exact ⟨cb, rfl⟩
    · rw [if_neg cb]
      by_cases c : nz ∧ s * 128 + (e - (127 - b)) * 8 + rnd f = 0 ∧ 115 ≤ e
      · right; right; right; right
        rw [if_pos c]
        exact ⟨by omega, by omega, c.1, c.2.2, by omega, rfl⟩
      · right; right; right; left
        rw [if_neg c]
        refine ⟨by omega, by omega, ?_, rfl⟩
        intro h1 h2 h3
        by_contra hc
        exact c ⟨h3, by omega, by omega⟩

theorem decN_cases (b q : Nat) (hq : q < 256) :
    (q = 128 ∧ decN b q = (126 - b) * 2 ^ 23 + 2) ∨ (q = 0 ∧ decN b q = 0) ∨
    (q ≠ 128 ∧ q ≠ 0 ∧ decN b q = (q / 128) * 2 ^ 31 + (q % 128 / 8 + (127 - b)) * 2 ^ 23 + (q % 8) * 2 ^ 20) := by
  unfold decN
  by_cases h : q = 128
  · left; simp [h]
  · by_cases h0 : q = 0
    · right; left; simp [h0]
    · right; right
      rw [if_neg h, if_neg (by omega)]
      exact ⟨h, h0, rfl⟩

theorem rnd_cases (f : Nat) : (f / 2 ^ 20 < 7 ∧ f / 2 ^ 19 % 2 = 1 ∧ rnd f = f / 2 ^ 20 + 1) ∨
    (f / 2 ^ 20 < 7 ∧ f / 2 ^ 19 % 2 = 0 ∧ rnd f = f / 2 ^ 20) ∨ (7 ≤ f / 2 ^ 20 ∧ rnd f = f / 2 ^ 20) := by
  unfold rnd; split <;> omega

theorem decN_lt_of_pos (b : Nat) (nz : Prop) [Decidable nz] (e f : Nat) (hf : f < 2 ^ 23)
    (hb1 : 1 ≤ b) (hb : b ≤ 15) : decN b (encN b nz 0 e f) < 2 ^ 31 := by
  have hr := rnd_le f hf
  have key : ∀ q, q ≤ 128 → decN b q < 2 ^ 31 := by
    intro q hq
    rcases decN_cases b q (by omega) with ⟨_, h⟩ | ⟨_, h⟩ | ⟨_, _, h⟩ <;> rw [h] <;> omega
  apply key
  rcases encN_cases b nz 0 e f (by omega) hf hb1 hb with ⟨_, h⟩ | ⟨_, h⟩ | ⟨_, _, _, _, h⟩ | ⟨_, _, _, h⟩ | ⟨_, _, _, _, _, h⟩
    <;> rw [h] <;> omega

theorem decN_of_neg (b : Nat) (nz : Prop) [Decidable nz] (e f : Nat) (hf : f < 2 ^ 23)
    (hb1 : 1 ≤ b) (hb : b ≤ 15) :
    ((127 - b) * 2 ^ 23 + 2 ^ 19 ≤ e * 2 ^ 23 + f ∧ 2 ^ 31 ≤ decN b (encN b nz 1 e f)) ∨
    (e * 2 ^ 23 + f < (127 - b) * 2 ^ 23 + 2 ^ 19 ∧ decN b (encN b nz 1 e f) = (126 - b) * 2 ^ 23 + 2) := by
  have hr := rnd_le f hf
  rcases encN_cases b nz 1 e f (by omega) hf hb1 hb with ⟨h0, h⟩ | ⟨h0, h⟩ | ⟨_, h0, _⟩ | ⟨h0, h0', _, h⟩ | ⟨_, h0, _⟩
  · left; rw [h]; refine ⟨by omega, ?_⟩; unfold decN; norm_num; omega
  · right; rw [h]; refine ⟨by omega, ?_⟩; unfold decN; norm_num
  · omega
  · rw [h]
    have h3 := rnd_cases f
    by_cases hz : e = 127 - b ∧ rnd f = 0
    · right
      obtain ⟨hz1, hz2⟩ := hz
      constructor
      · omega
      · rw [hz1, hz2]; unfold decN; norm_num
    · left
      constructor
      · omega
      · unfold decN
        rw [if_neg (by omega), if_neg (by omega)]
        omega
  · omega

/-- For non-negative inputs the code is a "plain" code `p < 120`, or 0x80 standing for a nonzero tiny number. -/
theorem encN_pos (b : Nat) (nz : Prop) [Decidable nz] (e f : Nat) :
    encN b nz 0 e f =
      if nz ∧ (if 142 - b ≤ e then 119 else if e < 127 - b then 0 else (e - (127 - b)) * 8 + rnd f) = 0 ∧ 115 ≤ e
      then 128 else (if 142 - b ≤ e then 119 else if e < 127 - b then 0 else (e - (127 - b)) * 8 + rnd f) := by
  unfold encN; dsimp only; simp

theorem rnd_mono {f f' : Nat} (h : f ≤ f') (hf : f' < 2 ^ 23) : rnd f ≤ rnd f' := by
  rcases rnd_cases f with h1 | h1 | h1 <;> rcases rnd_cases f' with h2 | h2 | h2 <;> omega

theorem decN_mono (b : Nat) (nz nz' : Prop) [Decidable nz] [Decidable nz'] (e f e' f' : Nat)
    (hf : f < 2 ^ 23) (hf' : f' < 2 ^ 23) (hb1 : 1 ≤ b) (hb : b ≤ 15)
    (hnz : nz → nz') (hle : e < e' ∨ (e = e' ∧ f ≤ f')) :
    decN b (encN b nz 0 e f) ≤ decN b (encN b nz' 0 e' f') := by
  rw [encN_pos, encN_pos]
  have hr := rnd_le f hf
  have hr' := rnd_le f' hf'
  have hpp : (if 142 - b ≤ e then 119 else if e < 127 - b then 0 else (e - (127 - b)) * 8 + rnd f) ≤
      (if 142 - b ≤ e' then 119 else if e' < 127 - b then 0 else (e' - (127 - b)) * 8 + rnd f') := by
    rcases hle with h1 | ⟨rfl, h2⟩
    · split_ifs <;> omega
    · have := rnd_mono h2 hf'
      split_ifs <;> omega
  have hp1 : (if 142 - b ≤ e then 119 else if e < 127 - b then 0 else (e - (127 - b)) * 8 + rnd f) < 120 := by
    split_ifs <;> omega
  have hp2 : (if 142 - b ≤ e' then 119 else if e' < 127 - b then 0 else (e' - (127 - b)) * 8 + rnd f') < 120 := by
    split_ifs <;> omega
  generalize (if 142 - b ≤ e then 119 else if e < 127 - b then 0 else (e - (127 - b)) * 8 + rnd f) = p at *
  generalize (if 142 - b ≤ e' then 119 else if e' < 127 - b then 0 else (e' - (127 - b)) * 8 + rnd f') = p' at *
  have hq : ∀ p, p < 120 → p ≠ 0 → decN b p = (p + (127 - b) * 8) * 2 ^ 20 := by
    intro p hp hp0; unfold decN; rw [if_neg (by omega), if_neg (by omega)]; omega
  have h0 : decN b 0 = 0 := by unfold decN; norm_num
  have h128 : decN b 128 = (126 - b) * 2 ^ 23 + 2 := rfl
  by_cases c : nz ∧ p = 0 ∧ 115 ≤ e
  · rw [if_pos c]
    by_cases c' : nz' ∧ p' = 0 ∧ 115 ≤ e'
    · rw [if_pos c']
    · rw [if_neg c']
      have : p' ≠ 0 := fun h => c' ⟨hnz c.1, h, by omega⟩
      rw [h128, hq p' hp2 this]; omega
  · rw [if_neg c]
    by_cases c' : nz' ∧ p' = 0 ∧ 115 ≤ e'
    · rw [if_pos c']
      have : p = 0 := by omega
      rw [this, h0]; exact Nat.zero_le _
    · rw [if_neg c']
      by_cases hp0 : p = 0
      · rw [hp0, h0]; exact Nat.zero_le _
      · rw [hq p hp1 hp0, hq p' hp2 (by omega)]; omega

end Verif.QuarterFloat
