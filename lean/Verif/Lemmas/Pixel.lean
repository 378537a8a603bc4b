import Verif.Model.Pixel
import Verif.Spec.Pixel
import Mathlib.Tactic.Ring
import Mathlib.Tactic.Linarith
import Mathlib.Data.Nat.Log

/-!
Rounding to the nearest float, for the product with 255 in `PixelTensor::setVal`.
-/
namespace Verif.Pixel
open Verif.FloatBits Verif.FloatArith Verif.BinaryDataset

/-- The exponent, quotient and rounded quotient of `roundUnits` for integers. -/
def sh (n : Nat) : Nat := Nat.log2 n - 23
def quo (n : Nat) : Nat := n / 2 ^ sh n
def up (n : Nat) : Prop := 2 ^ sh n < 2 * (n % 2 ^ sh n) ∨ (2 * (n % 2 ^ sh n) = 2 ^ sh n ∧ quo n % 2 = 1)
instance (n : Nat) : Decidable (up n) := by unfold up; infer_instance
def sig (n : Nat) : Nat := if up n then quo n + 1 else quo n

theorem roundUnits_eq (n : Nat) : roundUnits n 1 = Nat.min (sh n * 2 ^ 23 + sig n) 0x7F800000 := by
  unfold roundUnits sig up quo sh
  simp only [Nat.div_one, Nat.one_mul]
  congr

theorem bounds (n : Nat) (hn : 0 < n) (hs : 0 < sh n) : 2 ^ 23 * 2 ^ sh n ≤ n ∧ n < 2 ^ 24 * 2 ^ sh n := by
  have e : Nat.log2 n = 23 + sh n := by unfold sh at *; omega
  rw [Nat.log2_eq_iff hn.ne'] at e
  rw [← pow_add, ← pow_add]
  refine ⟨e.1, ?_⟩
  rw [show 24 + sh n = 23 + sh n + 1 by omega]
  exact e.2

theorem small (n : Nat) (hn : 0 < n) (hs : sh n = 0) : n < 2 ^ 24 := by
  have h := (Nat.log2_lt hn.ne' (k := 24)).mp (by unfold sh at hs; omega)
  exact h

theorem quo_lt (n : Nat) (hn : 0 < n) : quo n < 2 ^ 24 := by
  unfold quo
  by_cases hs : sh n = 0
  · rw [hs, pow_zero, Nat.div_one]; exact small n hn hs
  · exact (Nat.div_lt_iff_lt_mul (Nat.two_pow_pos _)).mpr (bounds n hn (by omega)).2

theorem le_quo (n : Nat) (hn : 0 < n) (hs : 0 < sh n) : 2 ^ 23 ≤ quo n :=
  (Nat.le_div_iff_mul_le (Nat.two_pow_pos _)).mpr (bounds n hn hs).1

theorem not_up (n : Nat) (hs : sh n = 0) : ¬ up n := by
  unfold up
  rw [hs, pow_zero, Nat.mod_one]
  omega

theorem sig_le (n : Nat) (hn : 0 < n) : sig n ≤ 2 ^ 24 := by
  have := quo_lt n hn
  unfold sig
  split <;> omega

theorem le_sig (n : Nat) (hn : 0 < n) (hs : 0 < sh n) : 2 ^ 23 ≤ sig n := by
  have := le_quo n hn hs
  unfold sig
  split <;> omega

/-- What the pattern with exponent shift `s` and significand `m` denotes. -/
theorem units_of (s m : Nat) (hm : m ≤ 2 ^ 24) (h : 0 < s → 2 ^ 23 ≤ m) (hs : s ≤ 200) :
    magUnits (expo (BitVec.ofNat 32 (s * 2 ^ 23 + m))) (frac (BitVec.ofNat 32 (s * 2 ^ 23 + m))) = m * 2 ^ s := by
  have hlt : s * 2 ^ 23 + m < 2 ^ 32 := by omega
  unfold expo frac
  rw [BitVec.toNat_ofNat, Nat.mod_eq_of_lt hlt]
  by_cases h1 : m < 2 ^ 23
  · have hs0 : s = 0 := by
      by_contra hne
      have := h (by omega)
      omega
    subst hs0
    rw [show (0 * 2 ^ 23 + m) / 2 ^ 23 % 256 = 0 by omega, show (0 * 2 ^ 23 + m) % 2 ^ 23 = m by omega]
    simp [magUnits]
  · by_cases h2 : m = 2 ^ 24
    · subst h2
      rw [show (s * 2 ^ 23 + 2 ^ 24) / 2 ^ 23 % 256 = s + 2 by omega, show (s * 2 ^ 23 + 2 ^ 24) % 2 ^ 23 = 0 by omega]
      unfold magUnits
      rw [if_neg (by omega), show s + 2 - 1 = s + 1 by omega, pow_succ]
      ring
    · rw [show (s * 2 ^ 23 + m) / 2 ^ 23 % 256 = s + 1 by omega, show (s * 2 ^ 23 + m) % 2 ^ 23 = m - 2 ^ 23 by omega]
      unfold magUnits
      rw [if_neg (by omega), show 2 ^ 23 + (m - 2 ^ 23) = m by omega, show s + 1 - 1 = s by omega]

/-- The rounded number, in units. -/
def rounded (n : Nat) : Nat := sig n * 2 ^ sh n

theorem sh_le (n : Nat) (h : n < 2 ^ 157) : sh n ≤ 133 := by
  unfold sh
  rcases Nat.eq_zero_or_pos n with rfl | hn
  · simp
  · have := (Nat.log2_lt hn.ne' (k := 157)).mpr h
    omega

theorem units_round (n : Nat) (h : n < 2 ^ 157) :
    magUnits (expo (BitVec.ofNat 32 (roundUnits n 1))) (frac (BitVec.ofNat 32 (roundUnits n 1))) = rounded n := by
  have hs := sh_le n h
  rcases Nat.eq_zero_or_pos n with rfl | hn
  · decide
  · have h1 := sig_le n hn
    rw [roundUnits_eq, show Nat.min (sh n * 2 ^ 23 + sig n) 0x7F800000 = sh n * 2 ^ 23 + sig n from Nat.min_eq_left (by omega)]
    exact units_of _ _ h1 (le_sig n hn) (by omega)

theorem quo_mul_le (n : Nat) : quo n * 2 ^ sh n ≤ n := Nat.div_mul_le_self _ _

theorem quo_le_rounded (n : Nat) : quo n * 2 ^ sh n ≤ rounded n := by
  unfold rounded
  refine Nat.mul_le_mul_right _ ?_
  unfold sig
  split <;> omega

/-- At most half a step is added. -/
theorem rounded_le (n : Nat) (h : n < 2 ^ 157) : rounded n ≤ n + 2 ^ 132 := by
  have hs := sh_le n h
  have h0 := Nat.div_add_mod n (2 ^ sh n)
  have hq := quo_mul_le n
  by_cases hu : up n
  · have h1 : 2 ^ sh n ≤ 2 * (n % 2 ^ sh n) := by unfold up at hu; omega
    have h2 : 2 ^ sh n ≤ 2 ^ 133 := Nat.pow_le_pow_right (by omega) hs
    have h3 : rounded n = quo n * 2 ^ sh n + 2 ^ sh n := by unfold rounded sig; rw [if_pos hu]; ring
    have h4 : n = quo n * 2 ^ sh n + n % 2 ^ sh n := by unfold quo; rw [Nat.mul_comm]; exact h0.symm
    rw [h3]
    have e : (2 : Nat) ^ 133 = 2 * 2 ^ 132 := by rw [pow_succ]; ring
    rw [e] at h2
    generalize 2 ^ sh n = w at *
    generalize n % w = r at *
    generalize (2 : Nat) ^ 132 = z at *
    generalize quo n * w = x at *
    omega
  · unfold rounded sig
    rw [if_neg hu]
    exact le_trans hq (Nat.le_add_right _ _)

/-- Rounding does not cross multiples of `2^149` downwards. -/
theorem le_rounded (n k : Nat) (h : n < 2 ^ 157) (hk : k * 2 ^ 149 ≤ n) : k * 2 ^ 149 ≤ rounded n := by
  have hs := sh_le n h
  refine le_trans ?_ (quo_le_rounded n)
  have e : k * 2 ^ 149 = k * 2 ^ (149 - sh n) * 2 ^ sh n := by
    rw [Nat.mul_assoc, ← pow_add]
    congr 2
    omega
  rw [e] at hk ⊢
  refine Nat.mul_le_mul_right _ ?_
  unfold quo
  exact (Nat.le_div_iff_mul_le (Nat.two_pow_pos _)).mpr hk

/-- Numbers between a number and what it is rounded up to are rounded up, too. -/
theorem rounded_mono (n n' k : Nat) (h : n' < 2 ^ 157) (hn : n ≤ n') (hk : k * 2 ^ 149 ≤ rounded n) : k * 2 ^ 149 ≤ rounded n' := by
  by_cases hkn : k * 2 ^ 149 ≤ n'
  · exact le_rounded n' k h hkn
  · have hkn : n' < k * 2 ^ 149 := by omega
    have hlt : n < 2 ^ 157 := by omega
    have hs := sh_le n hlt
    have e : k * 2 ^ 149 = k * 2 ^ (149 - sh n) * 2 ^ sh n := by
      rw [Nat.mul_assoc, ← pow_add]
      congr 2
      omega
    have hu : up n := by
      by_contra hu
      have : rounded n = quo n * 2 ^ sh n := by unfold rounded sig; rw [if_neg hu]
      have := quo_mul_le n
      omega
    have hs0 : 0 < sh n := by
      by_contra h0
      exact not_up n (by omega) hu
    have h0 : 0 < n := by
      rcases Nat.eq_zero_or_pos n with rfl | h0
      · exact absurd hs0 (by decide)
      · exact h0
    have hr : rounded n = (quo n + 1) * 2 ^ sh n := by unfold rounded sig; rw [if_pos hu]
    have hw := Nat.two_pow_pos (sh n)
    -- the multiple is the next step
    have hq : quo n + 1 = k * 2 ^ (149 - sh n) := by
      refine le_antisymm ?_ ?_
      · have h1 : quo n * 2 ^ sh n < k * 2 ^ (149 - sh n) * 2 ^ sh n := by rw [← e]; exact lt_of_le_of_lt (quo_mul_le n) (by omega)
        exact Nat.lt_of_mul_lt_mul_right h1
      · rw [hr, e] at hk
        exact Nat.le_of_mul_le_mul_right hk hw
    have hlt' : n' < (quo n + 1) * 2 ^ sh n := by rw [hq, ← e]; exact hkn
    have hge' : quo n * 2 ^ sh n ≤ n' := le_trans (quo_mul_le n) hn
    have hsh : sh n' = sh n := by
      have h1 := le_quo n h0 hs0
      have h2 := quo_lt n h0
      have : Nat.log2 n' = 23 + sh n := by
        rw [Nat.log2_eq_iff (by omega)]
        refine ⟨?_, ?_⟩
        · rw [pow_add]; exact le_trans (Nat.mul_le_mul_right _ h1) hge'
        · rw [show 23 + sh n + 1 = 24 + sh n by omega, pow_add]; exact lt_of_lt_of_le hlt' (Nat.mul_le_mul_right _ h2)
      unfold sh at this ⊢
      omega
    have hquo : quo n' = quo n := by
      unfold quo at *
      rw [hsh]
      exact Nat.div_eq_of_lt_le hge' hlt'
    have hmod : n % 2 ^ sh n ≤ n' % 2 ^ sh n' := by
      have h1 := Nat.div_add_mod n (2 ^ sh n)
      have h2 := Nat.div_add_mod n' (2 ^ sh n')
      have h3 : n' / 2 ^ sh n' = n / 2 ^ sh n := hquo
      rw [h3] at h2
      rw [hsh] at h2 ⊢
      omega
    have hu' : up n' := by
      unfold up at *
      rw [hquo]
      rw [hsh] at hmod ⊢
      generalize 2 ^ sh n = w at *
      generalize n % w = a at *
      generalize n' % w = b at *
      omega
    have : rounded n' = rounded n := by
      rw [hr]
      unfold rounded sig
      rw [if_pos hu', hquo, hsh]
    rw [this]
    exact hk

/-- The level of a number of units. -/
def level (u : Nat) : Nat := rounded (u * 255) / 2 ^ 149

theorem level_mono (u u' : Nat) (h : u' ≤ 2 ^ 149) (hu : u ≤ u') : level u ≤ level u' := by
  unfold level
  rw [Nat.le_div_iff_mul_le (Nat.two_pow_pos _)]
  refine rounded_mono (u * 255) (u' * 255) _ ?_ (by omega) (Nat.div_mul_le_self _ _)
  have e : (2 : Nat) ^ 157 = 2 ^ 149 * 256 := by decide +kernel
  rw [e]
  have := Nat.two_pow_pos 149
  generalize (2 : Nat) ^ 149 = z at *
  omega

theorem level_spec (u : Nat) (h : u ≤ 2 ^ 149) : u * 255 < (level u + 1) * 2 ^ 149 ∧ level u * 2 ^ 149 ≤ u * 255 + 2 ^ 132 := by
  have hlt : u * 255 < 2 ^ 157 := by
    have e : (2 : Nat) ^ 157 = 2 ^ 149 * 256 := by decide +kernel
    rw [e]
    have := Nat.two_pow_pos 149
    generalize (2 : Nat) ^ 149 = z at *
    omega
  constructor
  · by_contra hc
    have h1 := le_rounded (u * 255) (level u + 1) hlt (by omega)
    have h2 := Nat.lt_mul_div_succ (rounded (u * 255)) (Nat.two_pow_pos 149)
    unfold level at h1
    rw [Nat.mul_comm (2 ^ 149)] at h2
    exact absurd h2 (not_lt.mpr h1)
  · exact le_trans (Nat.div_mul_le_self _ _) (rounded_le _ hlt)

theorem level_one : level (2 ^ 149) = 255 := by decide +kernel
theorem level_zero : level 0 = 0 := by decide +kernel

theorem level_le (u : Nat) (h : u ≤ 2 ^ 149) : level u ≤ 255 := by
  have := level_mono u (2 ^ 149) (le_refl _) h
  rwa [level_one] at this

theorem value_one : value one = 2 ^ 149 := by decide
theorem value_zero : value 0#32 = 0 := by decide

/-- What `setVal` stores for a value between zero and one. -/
theorem store_inside (v : BitVec 32) (hn : isNaN v = false) (h0 : 0 ≤ value v) (h1 : value v ≤ 2 ^ 149) :
    (pixelStore v).toNat = level (value v).toNat := by
  have hmag : value v = (magUnits (expo v) (frac v) : Int) := by
    unfold value at h0 ⊢
    split
    · rename_i h
      rw [if_pos h] at h0
      omega
    · rfl
  have hmin : fmin v one = v := by
    unfold fmin flt
    rw [if_neg]
    rw [value_one]
    simp only [Bool.and_eq_true, decide_eq_true_eq, not_and]
    intro _
    exact not_lt.mpr h1
  have hu : magUnits (expo v) (frac v) ≤ 2 ^ 149 := by
    rw [hmag] at h1
    exact_mod_cast h1
  have key : truncNat (mul255 v) = level (magUnits (expo v) (frac v)) := by
    unfold truncNat mul255 level
    rw [units_round]
    have e : (2 : Nat) ^ 157 = 2 ^ 149 * 256 := by decide +kernel
    rw [e]
    have := Nat.two_pow_pos 149
    generalize (2 : Nat) ^ 149 = z at *
    omega
  have hnat : (value v).toNat = magUnits (expo v) (frac v) := by rw [hmag]; rfl
  have hmax : (fmax 0#32 v = v) ∨ (fmax 0#32 v = 0#32 ∧ value v = 0) := by
    unfold fmax flt
    rw [value_zero, hn]
    by_cases hz : 0 < value v
    · left
      rw [if_pos]
      simp only [decide_eq_true hz, Bool.and_true, Bool.not_false]
      decide
    · right
      refine ⟨?_, by omega⟩
      rw [if_neg]
      simp [hz]
  unfold pixelStore
  rw [hmin, hnat]
  rcases hmax with hm | ⟨hm, hz⟩
  · rw [hm, key, BitVec.toNat_ofNat]
    exact Nat.mod_eq_of_lt (Nat.lt_succ_of_le (level_le _ hu))
  · have hz' : magUnits (expo v) (frac v) = 0 := by rw [hmag] at hz; exact_mod_cast hz
    rw [hm, hz', level_zero]
    decide +kernel

theorem store_nan (v : BitVec 32) (hn : isNaN v = true) : pixelStore v = 0#8 := by
  have h1 : fmin v one = v := by unfold fmin flt; rw [if_neg]; simp [hn]
  have h2 : fmax 0#32 v = 0#32 := by unfold fmax flt; rw [if_neg]; simp [hn]
  unfold pixelStore
  rw [h1, h2]
  decide +kernel

theorem store_low (v : BitVec 32) (h : value v ≤ 0) : pixelStore v = 0#8 := by
  have h1 : fmin v one = v := by
    unfold fmin flt
    rw [if_neg]
    rw [value_one]
    simp only [Bool.and_eq_true, decide_eq_true_eq, not_and]
    intro _
    have : (0 : Int) ≤ 2 ^ 149 := by decide
    omega
  have h2 : fmax 0#32 v = 0#32 := by
    unfold fmax flt
    rw [if_neg]
    rw [value_zero]
    simp only [Bool.and_eq_true, decide_eq_true_eq, not_and]
    intro _
    omega
  unfold pixelStore
  rw [h1, h2]
  decide +kernel

theorem store_high (v : BitVec 32) (hn : isNaN v = false) (h : 2 ^ 149 < value v) : pixelStore v = 255#8 := by
  have h1 : fmin v one = one := by
    unfold fmin flt
    rw [if_pos]
    rw [value_one, hn]
    simp only [decide_eq_true h, Bool.and_true, Bool.not_false]
    decide
  unfold pixelStore
  rw [h1]
  decide +kernel

end Verif.Pixel

namespace Verif.Pixel
open Verif.FloatBits Verif.FloatArith Verif.BinaryDataset Verif.Encoders

/-! ### Filling nested vectors -/

theorem fillWith_ok {A B : Type} (f : A → B → Out B) (as : List A) : ∀ (bs : List B), as.length ≤ bs.length →
    (∀ a ∈ as, ∀ b ∈ bs, ∃ b', f a b = .ok b') → ∃ bs', fillWith f bs as = .ok bs' ∧ bs'.length = bs.length ∧
      ∀ i, i < bs.length → (∀ a, as[i]? = some a → ∃ b b', bs[i]? = some b ∧ bs'[i]? = some b' ∧ f a b = .ok b') ∧
        (as[i]? = none → bs'[i]? = bs[i]?) := by
  induction as with
  | nil => intro bs _ _; exact ⟨bs, by cases bs <;> rfl, rfl, fun i _ => ⟨fun a h => by simp at h, fun _ => rfl⟩⟩
  | cons a as ih =>
    intro bs hl hf
    cases bs with
    | nil => simp at hl
    | cons b bs =>
      obtain ⟨b', hb'⟩ := hf a List.mem_cons_self b List.mem_cons_self
      obtain ⟨bs', h1, h2, h3⟩ := ih bs (by simpa using hl) fun x hx y hy => hf x (List.mem_cons_of_mem _ hx) y (List.mem_cons_of_mem _ hy)
      refine ⟨b' :: bs', ?_, by simp [h2], ?_⟩
      · simp [fillWith, hb', h1, Out.map]
      · intro i hi
        cases i with
        | zero => exact ⟨fun x hx => ⟨b, b', rfl, rfl, by simp at hx; rw [← hx]; exact hb'⟩, fun h => by simp at h⟩
        | succ i =>
          simp only [List.getElem?_cons_succ]
          exact h3 i (by simpa using hi)

theorem fillWith_throws {A B : Type} (f : A → B → Out B) (as : List A) : ∀ (bs : List B),
    (∀ a ∈ as, ∀ b ∈ bs, f a b ≠ .undefined) → (bs.length < as.length ∨ ∃ a ∈ as, ∀ b ∈ bs, f a b = .throws) →
    fillWith f bs as = .throws := by
  induction as with
  | nil => intro bs _ h; rcases h with h | ⟨a, h, _⟩ <;> simp at h
  | cons a as ih =>
    intro bs hu h
    cases bs with
    | nil => rfl
    | cons b bs =>
      have hb := hu a List.mem_cons_self b List.mem_cons_self
      unfold fillWith
      cases hfa : f a b with
      | throws => rfl
      | undefined => exact absurd hfa hb
      | ok b' =>
        have : fillWith f bs as = .throws := by
          refine ih bs (fun x hx y hy => hu x (List.mem_cons_of_mem _ hx) y (List.mem_cons_of_mem _ hy)) ?_
          rcases h with h | ⟨x, hx, hxt⟩
          · left; simpa using h
          · rcases List.mem_cons.mp hx with rfl | hx
            · rw [hxt b List.mem_cons_self] at hfa
              cases hfa
            · exact Or.inr ⟨x, hx, fun y hy => hxt y (List.mem_cons_of_mem _ hy)⟩
        simp [this, Out.map]

theorem row_ok (cols : Nat) (vs : List (BitVec 32)) (h : vs.length ≤ cols) :
    ∃ row, fillRow vs (List.replicate cols 0#8) = .ok row ∧ row.length = cols ∧
      ∀ c, c < cols → row[c]?.getD 0#8 = pixelStore (vs[c]?.getD 0#32) := by
  obtain ⟨row, h1, h2, h3⟩ := fillWith_ok (fun v (_ : BitVec 8) => Out.ok (pixelStore v)) vs (List.replicate cols 0#8) (by simpa using h)
    (fun a _ b _ => ⟨_, rfl⟩)
  refine ⟨row, h1, by simpa using h2, ?_⟩
  intro c hc
  have h4 := h3 c (by simpa using hc)
  cases hv : vs[c]? with
  | none =>
    rw [h4.2 hv]
    simp only [List.getElem?_replicate, hc, if_true, Option.getD_some, Option.getD_none]
    decide +kernel
  | some v =>
    obtain ⟨b, b', _, hb', hv'⟩ := h4.1 v hv
    rw [hb']
    simp only [Option.getD_some]
    cases hv'
    rfl

theorem chan_ok (rows cols : Nat) (vs : List (List (BitVec 32))) (h : vs.length ≤ rows) (h' : ∀ v ∈ vs, v.length ≤ cols) :
    ∃ ch, fillChannel vs (List.replicate rows (List.replicate cols 0#8)) = .ok ch ∧ ch.length = rows ∧ (∀ row ∈ ch, row.length = cols) ∧
      ∀ r c, r < rows → c < cols → ((ch[r]?).getD [])[c]?.getD 0#8 = pixelStore (((vs[r]?).getD [])[c]?.getD 0#32) := by
  obtain ⟨ch, h1, h2, h3⟩ := fillWith_ok fillRow vs (List.replicate rows (List.replicate cols 0#8)) (by simpa using h)
    (fun a ha b hb => by
      obtain ⟨row, hrow, _⟩ := row_ok cols a (h' a ha)
      rw [(List.mem_replicate.mp hb).2]
      exact ⟨row, hrow⟩)
  have h2' : ch.length = rows := by simpa using h2
  have key : ∀ r, r < rows → ∃ row, ch[r]? = some row ∧ row.length = cols ∧ ∀ c, c < cols → row[c]?.getD 0#8 = pixelStore (((vs[r]?).getD [])[c]?.getD 0#32) := by
    intro r hr
    have h4 := h3 r (by simpa using hr)
    cases hv : vs[r]? with
    | none =>
      refine ⟨List.replicate cols 0#8, ?_, by simp, ?_⟩
      · rw [h4.2 hv]; simp [hr]
      · intro c hc
        simp only [List.getElem?_replicate, hc, if_true, Option.getD_some, Option.getD_none, List.getElem?_nil]
        decide +kernel
    | some v =>
      obtain ⟨b, b', hb, hb', hf⟩ := h4.1 v hv
      have hb0 : b = List.replicate cols 0#8 := by simp [hr] at hb; exact hb.symm
      subst hb0
      obtain ⟨row, e1, e2, e3⟩ := row_ok cols v (h' v (List.mem_of_getElem? hv))
      rw [e1] at hf
      cases hf
      exact ⟨_, hb', e2, e3⟩
  refine ⟨ch, h1, h2', ?_, ?_⟩
  · intro row hrow
    obtain ⟨r, hr, rfl⟩ := List.getElem_of_mem hrow
    obtain ⟨row', e1, e2, _⟩ := key r (by omega)
    rw [List.getElem?_eq_getElem hr] at e1
    cases e1
    exact e2
  · intro r c hr hc
    obtain ⟨row, e1, _, e3⟩ := key r hr
    rw [e1]
    exact e3 c hc

theorem nested_ok (rows cols : Nat) (values : Data) (hf : ∀ ch ∈ values, ch.length ≤ rows ∧ ∀ row ∈ ch, row.length ≤ cols) :
    ∃ d, fillWith fillChannel (allocate rows cols values.length) values = .ok d ∧ d.length = values.length ∧
      (∀ ch ∈ d, ch.length = rows ∧ ∀ row ∈ ch, row.length = cols) ∧
      ∀ r c k, r < rows → c < cols → k < values.length →
        ((((d[k]?).getD [])[r]?).getD [])[c]?.getD 0#8 = pixelStore (given values r c k) := by
  obtain ⟨d, h1, h2, h3⟩ := fillWith_ok fillChannel values (allocate rows cols values.length) (by simp [allocate])
    (fun a ha b hb => by
      obtain ⟨ch, hch, _⟩ := chan_ok rows cols a (hf a ha).1 (hf a ha).2
      rw [(List.mem_replicate.mp hb).2]
      exact ⟨ch, hch⟩)
  have h2' : d.length = values.length := by simpa [allocate] using h2
  have key : ∀ k, k < values.length → ∃ ch, d[k]? = some ch ∧ ch.length = rows ∧ (∀ row ∈ ch, row.length = cols) ∧
      ∀ r c, r < rows → c < cols → ((ch[r]?).getD [])[c]?.getD 0#8 = pixelStore (given values r c k) := by
    intro k hk
    have h4 := (h3 k (by simpa [allocate] using hk)).1 values[k] (List.getElem?_eq_getElem hk)
    obtain ⟨b, b', hb, hb', hff⟩ := h4
    have hb0 : b = List.replicate rows (List.replicate cols 0#8) := by simp [allocate, hk] at hb; exact hb.symm
    subst hb0
    have hm := hf values[k] (List.getElem_mem hk)
    obtain ⟨ch, e1, e2, e3, e4⟩ := chan_ok rows cols values[k] hm.1 hm.2
    rw [e1] at hff
    cases hff
    refine ⟨_, hb', e2, e3, ?_⟩
    intro r c hr hc
    rw [e4 r c hr hc]
    unfold given
    rw [List.getElem?_eq_getElem hk]
    rfl
  refine ⟨d, h1, h2', ?_, ?_⟩
  · intro ch hch
    obtain ⟨k, hk, rfl⟩ := List.getElem_of_mem hch
    obtain ⟨ch', e1, e2, e3, _⟩ := key k (by omega)
    rw [List.getElem?_eq_getElem hk] at e1
    cases e1
    exact ⟨e2, e3⟩
  · intro r c k hr hc hk
    obtain ⟨ch, e1, _, _, e4⟩ := key k hk
    rw [e1]
    exact e4 r c hr hc

theorem row_defined (vs : List (BitVec 32)) : ∀ row, fillRow vs row ≠ .undefined := by
  induction vs with
  | nil => intro row; cases row <;> simp [fillRow, fillWith]
  | cons v vs ih =>
    intro row
    cases row with
    | nil => simp [fillRow, fillWith]
    | cons b row =>
      have := ih row
      unfold fillRow at this ⊢
      unfold fillWith
      cases h : fillWith (fun v (_ : BitVec 8) => Out.ok (pixelStore v)) row vs <;> simp_all [Out.map]

theorem chan_defined (vs : List (List (BitVec 32))) : ∀ ch, fillChannel vs ch ≠ .undefined := by
  induction vs with
  | nil => intro row; cases row <;> simp [fillChannel, fillWith]
  | cons v vs ih =>
    intro ch
    cases ch with
    | nil => simp [fillChannel, fillWith]
    | cons b ch =>
      have h1 := ih ch
      have h2 := row_defined v b
      unfold fillChannel at h1 ⊢
      unfold fillWith
      cases h : fillRow v b with
      | throws => simp
      | undefined => exact absurd h h2
      | ok b' =>
        cases h : fillWith fillRow ch vs <;> simp_all [Out.map]

theorem nested_throws (rows cols : Nat) (values : Data) (hf : ¬ ∀ ch ∈ values, ch.length ≤ rows ∧ ∀ row ∈ ch, row.length ≤ cols) :
    fillWith fillChannel (allocate rows cols values.length) values = .throws := by
  push Not at hf
  obtain ⟨ch, hch, h⟩ := hf
  refine fillWith_throws _ _ _ (fun a _ b _ => chan_defined a b) (Or.inr ⟨ch, hch, ?_⟩)
  intro b hb
  rw [(List.mem_replicate.mp hb).2]
  refine fillWith_throws _ _ _ (fun a _ b _ => row_defined a b) ?_
  by_cases hl : ch.length ≤ rows
  · obtain ⟨row, hrow, hlt⟩ := h hl
    refine Or.inr ⟨row, hrow, ?_⟩
    intro b' hb'
    rw [(List.mem_replicate.mp hb').2]
    exact fillWith_throws _ _ _ (fun a _ b _ => by simp) (Or.inl (by simpa using hlt))
  · exact Or.inl (by simpa using hl)

end Verif.Pixel
