import Verif.Model.ShowColumn
import Verif.Spec.ShowColumn
import Verif.Props.C157_PrintRow
import Verif.Props.C145_FloatColumn

/-!
C159: printing a stored column of numbers shows the numbers the dataset was created from.

`C159_shown_partial` and, for several channels, `C159_pixels_partial` bound the difference: half a thousandth from printing and the error of C145 from standardizing and normalizing in floats. The latter can be
large: `C159_violated`. A column of equal numbers is shown as `nan`: `C159_constant_violated`.
-/
namespace Verif.ShowColumn
open Verif Verif.TextCodec Verif.FloatBits Verif.Decimal Verif.PrintRow Verif.FloatColumn Verif.FloatStatistics Verif.Rounding Verif.Statistics

theorem shows_says (s : Str) (x : F32) (h : Shows s x.bits) : ∃ q, Says s q ∧ |q - number x| ≤ 1 / 2000 := by
  obtain ⟨w, f, rfl, hw, dw, df, lf, h1, h2⟩ := h
  obtain ⟨m, hm⟩ : ∃ m, magUnits (expo x.bits) (frac x.bits) = m := ⟨_, rfl⟩
  obtain ⟨d, hd⟩ : ∃ d, digitsValue (w ++ f) = d := ⟨_, rfl⟩
  have hv : number x = (if neg x.bits then -(m : ℚ) else m) / 2 ^ 149 := by
    unfold number value
    rw [hm]
    split <;> simp
  rw [hm, hd] at h1 h2
  have q1 : 2 * ((m : ℚ) * 1000) ≤ 2 * ((d : ℚ) * 2 ^ 149) + 2 ^ 149 := by exact_mod_cast h1
  have q2 : 2 * ((d : ℚ) * 2 ^ 149) ≤ 2 * ((m : ℚ) * 1000) + 2 ^ 149 := by exact_mod_cast h2
  have key : |(d : ℚ) / 1000 - (m : ℚ) / 2 ^ 149| ≤ 1 / 2000 := by
    obtain ⟨P, hP⟩ : ∃ P : ℚ, P = 2 ^ 149 := ⟨_, rfl⟩
    have hp : 0 < P := by rw [hP]; positivity
    rw [← hP] at q1 q2 ⊢
    obtain ⟨z, hz⟩ : ∃ z : ℚ, (m : ℚ) = z * P := ⟨m / P, by field_simp⟩
    rw [hz, mul_div_assoc, div_self hp.ne', mul_one]
    rw [hz] at q1 q2
    have r1 : 2 * z * 1000 ≤ 2 * d + 1 := le_of_mul_le_mul_right (by linarith) hp
    have r2 : 2 * (d : ℚ) ≤ 2 * z * 1000 + 1 := le_of_mul_le_mul_right (by linarith) hp
    rw [abs_le]
    constructor <;> linarith
  cases hn : neg x.bits with
  | false =>
    refine ⟨(d : ℚ) / 1000, ⟨w, f, hw, dw, df, lf, .inl ⟨by simp, by rw [hd]⟩⟩, ?_⟩
    rw [hv, hn]
    simpa using key
  | true =>
    refine ⟨-((d : ℚ) / 1000), ⟨w, f, hw, dw, df, lf, .inr ⟨by simp, by rw [hd]⟩⟩, ?_⟩
    rw [hv, hn, if_pos rfl, neg_div, neg_sub_neg, abs_sub_comm]
    exact key

theorem mem_elements (t : Tensor F32) (r c k : Nat) (hr : r < t.rows) (hc : c < t.cols) (hk : k < t.chans) : t.get r c k ∈ elements t := by
  unfold elements
  refine List.mem_flatMap.mpr ⟨k, List.mem_range.mpr hk, List.mem_flatMap.mpr ⟨r, List.mem_range.mpr hr, List.mem_map.mpr ⟨c, List.mem_range.mpr hc, rfl⟩⟩⟩

/-- C159. A column whose numbers have at most size `M` and are not all equal: each printed record has one line for each row, on which are the numbers of the row in order,
separated by commas. Each differs from the number in the source by at most half a thousandth and the error of C145. Missing: columns of equal numbers. -/
theorem C159_shown_partial (ts : List (Tensor F32)) (M : ℚ) (hM : M ≤ 2 ^ 70) (hlen : (ts.flatMap elements).length ≤ 2 ^ 53)
    (hl : ∀ x ∈ ts.flatMap elements, Finite x ∧ |number x| ≤ M) (hd : ∃ x ∈ ts.flatMap elements, ∃ y ∈ ts.flatMap elements, number x ≠ number y) :
    ∃ m, metadata ts = some m ∧ 0 ≤ number m.sd ∧ (∀ R : ℚ, (∀ x ∈ ts.flatMap elements, ∀ y ∈ ts.flatMap elements, number x - number y ≤ R) → number m.sd ≤ 3 * R) ∧
      ∀ t ∈ ts, t.chans = 1 → 0 < t.cols → (shown m (stored m t)).length = t.rows ∧ ∀ row, row < t.rows →
        ∃ blanks parts, (shown m (stored m t))[row]? = some (List.replicate blanks 32 ++ joined [44, 32] parts) ∧ parts.length = t.cols ∧
          ∀ c, c < t.cols → ∃ s q, parts[c]? = some s ∧ Says s q ∧ |q - number (t.get row c 0)| ≤ (4 + number m.sd) * M / 2 ^ 22 + 1 / 2 ^ 149 + 1 / 2000 := by
  obtain ⟨m, m1, m2, m3, m4⟩ := C145_read_back_partial ts M hM hlen hl hd
  refine ⟨m, m1, m2, m3, ?_⟩
  intro t ht hk hc
  refine ⟨by unfold shown PrintRow.lines stored; simp, ?_⟩
  intro row hr
  have hmem : ∀ c, c < t.cols → t.get row c 0 ∈ ts.flatMap elements := fun c hc' =>
    List.mem_flatMap.mpr ⟨t, ht, mem_elements t row c 0 hr hc' (by omega)⟩
  obtain ⟨blanks, parts, h1, -, h3, h4⟩ := C157_row ⟨t.rows, t.cols, t.chans, fun r c k => (decode m (encode m (t.get r c k))).bits⟩ hk hc row hr
    (fun c hc' => (m4 _ (hmem c hc')).2.1)
  refine ⟨blanks, parts, h1, h3, ?_⟩
  intro c hc'
  obtain ⟨s, hs, hsh, -⟩ := h4 c hc'
  obtain ⟨q, hq, hqe⟩ := shows_says s (decode m (encode m (t.get row c 0))) hsh
  refine ⟨s, q, hs, hq, ?_⟩
  have h5 := (m4 _ (hmem c hc')).2.2
  have h6 := abs_sub_le q (number (decode m (encode m (t.get row c 0)))) (number (t.get row c 0))
  clear * - hqe h5 h6
  generalize (1 : ℚ) / 2 ^ 149 = z at *
  linarith

/-- C159 for records with several channels, as colours: the numbers of a column are in parentheses. Missing: columns of equal numbers. -/
theorem C159_pixels_partial (ts : List (Tensor F32)) (M : ℚ) (hM : M ≤ 2 ^ 70) (hlen : (ts.flatMap elements).length ≤ 2 ^ 53)
    (hl : ∀ x ∈ ts.flatMap elements, Finite x ∧ |number x| ≤ M) (hd : ∃ x ∈ ts.flatMap elements, ∃ y ∈ ts.flatMap elements, number x ≠ number y) :
    ∃ m, metadata ts = some m ∧ 0 ≤ number m.sd ∧ (∀ R : ℚ, (∀ x ∈ ts.flatMap elements, ∀ y ∈ ts.flatMap elements, number x - number y ≤ R) → number m.sd ≤ 3 * R) ∧
      ∀ t ∈ ts, t.chans ≠ 1 → 0 < t.cols → (shown m (stored m t)).length = t.rows ∧ ∀ row, row < t.rows →
        ∃ parts : List (List Str), (shown m (stored m t))[row]? =
            some (List.replicate 8 32 ++ joined [44, 32] (parts.map fun p => 40 :: joined [44, 32] p ++ [41])) ∧ parts.length = t.cols ∧
          ∀ c, c < t.cols → ∃ p, parts[c]? = some p ∧ p.length = t.chans ∧ ∀ k, k < t.chans → ∃ s q, p[k]? = some s ∧ Says s q ∧
            |q - number (t.get row c k)| ≤ (4 + number m.sd) * M / 2 ^ 22 + 1 / 2 ^ 149 + 1 / 2000 := by
  obtain ⟨m, m1, m2, m3, m4⟩ := C145_read_back_partial ts M hM hlen hl hd
  refine ⟨m, m1, m2, m3, ?_⟩
  intro t ht hk hc
  refine ⟨by unfold shown PrintRow.lines stored; simp, ?_⟩
  intro row hr
  have hmem : ∀ c k, c < t.cols → k < t.chans → t.get row c k ∈ ts.flatMap elements := fun c k hc' hk' =>
    List.mem_flatMap.mpr ⟨t, ht, mem_elements t row c k hr hc' hk'⟩
  obtain ⟨parts, h1, h3, h4⟩ := C157_pixels ⟨t.rows, t.cols, t.chans, fun r c k => (decode m (encode m (t.get r c k))).bits⟩ hk hc row hr
    (fun c k hc' hk' => (m4 _ (hmem c k hc' hk')).2.1)
  refine ⟨parts, h1, h3, ?_⟩
  intro c hc'
  obtain ⟨p, hp, hpl, hps⟩ := h4 c hc'
  refine ⟨p, hp, hpl, ?_⟩
  intro k hk'
  obtain ⟨s, hs, hsh, -⟩ := hps k hk'
  obtain ⟨q, hq, hqe⟩ := shows_says s (decode m (encode m (t.get row c k))) hsh
  refine ⟨s, q, hs, hq, ?_⟩
  have h5 := (m4 _ (hmem c k hc' hk')).2.2
  have h6 := abs_sub_le q (number (decode m (encode m (t.get row c k)))) (number (t.get row c k))
  clear * - hqe h5 h6
  generalize (1 : ℚ) / 2 ^ 149 = z at *
  linarith

/-- C159 is violated for large numbers with a small deviation: for 2^29 and 2^29 + 64, `536870912.000` is shown twice. -/
theorem C159_violated : ∃ (t : Tensor F32) (m : Metadata), metadata [t] = some m ∧ number (t.get 0 0 0) + 64 = number (t.get 0 1 0) ∧
    shown m (stored m t) = [joined [44, 32] (List.replicate 2 [53, 51, 54, 56, 55, 48, 57, 49, 50, 46, 48, 48, 48])] := by
  refine ⟨lost, _, lost_metadata, ?_, by decide +kernel⟩
  show number ⟨0x4E000000#32⟩ + 64 = number ⟨0x4E000001#32⟩
  unfold number
  rw [show value (0x4E000000#32) = 2 ^ 29 * 2 ^ 149 by decide +kernel, show value (0x4E000001#32) = (2 ^ 29 + 64) * 2 ^ 149 by decide +kernel]
  rw [Int.cast_mul, Int.cast_mul, Int.cast_pow (2 : Int) 149, Int.cast_ofNat, mul_div_assoc, mul_div_assoc, div_self (by positivity)]
  norm_num

theorem equal_nan (v lo hi : F32) (hv : Finite v) (h1 : Finite lo) (h2 : Finite hi) (e1 : number v = number lo) (e2 : number hi = number lo) :
    isNaN (normalize lo hi v).bits = true := by
  have zero : ∀ a : F32, Finite a → number a = number lo → isNaN (a - lo).bits = false ∧ (a - lo).units = 0 := by
    intro a ha e
    have hval : FloatOrder.val a = FloatOrder.val lo := le_antisymm ((number_val a lo).1 e.le) ((number_val lo a).1 e.ge)
    have hz := (FloatDistance.sub_sign a lo ha h1).2.2 hval
    have f := FloatOrder.add_facts a (F32.negate lo) ha (FloatOrder.finite_num _ ((FloatOrder.negate_finite lo).mpr h1))
    refine ⟨f.1, ?_⟩
    have := FloatOrder.val_abs (a - lo)
    rw [hz] at this
    exact this.symm
  obtain ⟨n1, u1⟩ := zero v hv e1
  obtain ⟨n2, u2⟩ := zero hi h2 e2
  have hf : ∀ a : F32, isNaN a.bits = false → a.units = 0 → isInf a.bits = false := by
    intro a hn hu
    rcases FloatOrder.num_cases a hn with h | h
    · exact (Rounding.finite_not _ h.1).2
    · have : 0 < Rounding.pattern 0x7F800000 := by decide +kernel
      omega
  show isNaN (F32.div (v - lo) (hi - lo)).bits = true
  unfold F32.div
  rw [n1, n2, hf _ n1 u1, hf _ n2 u2, u1, u2]
  simp only [Bool.or_self, Bool.false_eq_true, if_false, if_true]
  decide

/-- ... and for every column of equal numbers: each is stored as NaN, and `nan` or `-nan` is shown. -/
theorem C159_constant_violated (ts : List (Tensor F32)) (hne : ts.flatMap elements ≠ []) (hlen : (ts.flatMap elements).length ≤ 2 ^ 53)
    (hl : ∀ x ∈ ts.flatMap elements, Finite x) (he : ∀ x ∈ ts.flatMap elements, ∀ y ∈ ts.flatMap elements, number x = number y) :
    ∃ m, metadata ts = some m ∧ ∀ t ∈ ts, t.chans = 1 → 0 < t.cols → ∀ row, row < t.rows →
      ∃ blanks parts, (shown m (stored m t))[row]? = some (List.replicate blanks 32 ++ joined [44, 32] parts) ∧ parts.length = t.cols ∧
        ∀ p ∈ parts, p = [110, 97, 110] ∨ p = [45, 110, 97, 110] := by
  obtain ⟨s, s1, -, ⟨a, ha, ea⟩, ⟨b, hb, eb⟩, -, -, -, -, w, w1, -, w3⟩ := C144_running ts hne hlen hl
  have hw : w = 0 := w3.mpr he
  subst hw
  obtain ⟨p1, p2, p3⟩ := toFloat_between s.min a a (hl a ha) (hl a ha) ea.ge ea.le
  obtain ⟨q1, q2, q3⟩ := toFloat_between s.max b b (hl b hb) (hl b hb) eb.ge eb.le
  refine ⟨⟨false, Double.toFloat s.mean, Double.toFloat 0, Double.toFloat s.min, Double.toFloat s.max⟩, ?_, ?_⟩
  · unfold metadata
    rw [s1]
    show s.variance.bind _ = _
    rw [w1]
    rw [Option.bind_some, FloatColumn.root_zero]
    simp
  intro t ht hk hc row hr
  have hnan : ∀ c, c < t.cols → isNaN (FloatColumn.decode ⟨false, Double.toFloat s.mean, Double.toFloat 0, Double.toFloat s.min, Double.toFloat s.max⟩
      (FloatColumn.encode ⟨false, Double.toFloat s.mean, Double.toFloat 0, Double.toFloat s.min, Double.toFloat s.max⟩ (t.get row c 0))).bits = true := by
    intro c hc'
    have hm : t.get row c 0 ∈ ts.flatMap elements := List.mem_flatMap.mpr ⟨t, ht, mem_elements t row c 0 hr hc' (by omega)⟩
    have elo : number (Double.toFloat s.min) = number a := le_antisymm p3 p2
    have ehi : number (Double.toFloat s.max) = number b := le_antisymm q3 q2
    have h := equal_nan (t.get row c 0) (Double.toFloat s.min) (Double.toFloat s.max) (hl _ hm) p1 q1 (by rw [elo]; exact he _ hm _ ha) (by rw [elo, ehi]; exact he _ hb _ ha)
    have hx : ¬ FloatOrder.Num (normalize (Double.toFloat s.min) (Double.toFloat s.max) (t.get row c 0)) := by
      unfold FloatOrder.Num
      rw [h]
      decide
    have hy := FloatActivation.nan_add _ (Double.toFloat s.min) (.inl (FloatActivation.nan_mul _ (Double.toFloat s.max - Double.toFloat s.min) (.inl hx)))
    have e : ∀ (lo hi mean sd v : F32), FloatColumn.decode ⟨false, mean, sd, lo, hi⟩ (FloatColumn.encode ⟨false, mean, sd, lo, hi⟩ v) =
        normalize lo hi v * (hi - lo) + lo := by
      intro lo hi mean sd v
      unfold FloatColumn.decode FloatColumn.encode FloatStatistics.denormalize
      simp only [Bool.false_eq_true, if_false]
    rw [e]
    unfold FloatOrder.Num at hy
    exact (Bool.not_eq_false _).mp hy
  obtain ⟨n, hn⟩ : ∃ n, t.cols = n + 1 := ⟨t.cols - 1, by omega⟩
  obtain ⟨g, hg⟩ : ∃ g : Nat → BitVec 32, g = fun c => (FloatColumn.decode ⟨false, Double.toFloat s.mean, Double.toFloat 0, Double.toFloat s.min, Double.toFloat s.max⟩
      (FloatColumn.encode ⟨false, Double.toFloat s.mean, Double.toFloat 0, Double.toFloat s.min, Double.toFloat s.max⟩ (t.get row c 0))).bits := ⟨_, rfl⟩
  refine ⟨8 - (fixed3 (g 0)).length, (List.range t.cols).map fun c => fixed3 (g c), ?_, by simp, ?_⟩
  · unfold shown PrintRow.lines stored
    rw [List.getElem?_map, List.getElem?_range hr, Option.map_some]
    congr 1
    unfold prettyPrintRow
    show (if t.chans = 1 then (columnLoop ⟨[], 8⟩ [] ((List.range t.cols).map _)).out else _) = _
    rw [if_pos hk, hn, List.range_succ_eq_map, List.map_cons, columnLoop_row, List.map_cons, List.map_cons, List.map_map, hg]
    rfl
  · intro p hp
    obtain ⟨c, hc', rfl⟩ := List.mem_map.mp hp
    have h := hnan c (List.mem_range.mp hc')
    rw [hg]
    unfold fixed3
    rw [if_pos h]
    split
    · right; rfl
    · left; rfl

/-- The single number 5 is stored as NaN, and `nan` is shown. -/
example : ∃ (t : Tensor F32) (m : Metadata) (before : Str), metadata [t] = some m ∧ number (t.get 0 0 0) = 5 ∧ t.rows = 1 ∧ t.cols = 1 ∧
    isNaN ((stored m t).get 0 0 0).bits = true ∧ shown m (stored m t) = [before ++ [110, 97, 110]] := by
  refine ⟨⟨1, 1, 1, fun _ _ _ => ⟨0x40A00000#32⟩⟩, ⟨false, ⟨0x40A00000#32⟩, ⟨0#32⟩, ⟨0x40A00000#32⟩, ⟨0x40A00000#32⟩⟩, [32, 32, 32, 32, 32], by decide +kernel, ?_, rfl, rfl,
    by decide +kernel, by decide +kernel⟩
  show number ⟨0x40A00000#32⟩ = 5
  unfold number
  rw [show value (0x40A00000#32) = 5 * 2 ^ 149 by decide +kernel]
  rw [Int.cast_mul, Int.cast_pow (2 : Int) 149, Int.cast_ofNat, Int.cast_ofNat, mul_div_assoc, div_self (by positivity)]
  norm_num

/-- A column with numbers up to 4: each is shown to a thousandth. -/
example : ∃ m, metadata [sample, sample] = some m ∧ ∃ blanks parts, (shown m (stored m sample))[0]? = some (List.replicate blanks 32 ++ joined [44, 32] parts) ∧
    ∃ s q, parts[0]? = some s ∧ Says s q ∧ |q - number (sample.get 0 0 0)| ≤ 1 / 1000 := by
  obtain ⟨h1, h2, h3, h4, h5⟩ := sample_column
  obtain ⟨m, m1, -, m3, m4⟩ := C159_shown_partial [sample, sample] 4 (by norm_num) h2 h1 ⟨_, h3, _, h4, h5⟩
  have h8 := m3 8 (by
    intro x hx y hy
    have g1 := abs_le.1 (h1 x hx).2
    have g2 := abs_le.1 (h1 y hy).2
    linarith)
  obtain ⟨-, r⟩ := m4 sample (by simp) (by decide) (by decide)
  obtain ⟨blanks, parts, p1, -, p3⟩ := r 0 (by decide)
  obtain ⟨s, q, s1, s2, s3⟩ := p3 0 (by decide)
  refine ⟨m, m1, blanks, parts, p1, s, q, s1, s2, s3.trans ?_⟩
  have t : (1 : ℚ) / 2 ^ 149 ≤ 1 / 10 ^ 6 := by norm_num
  generalize (1 : ℚ) / 2 ^ 149 = t' at *
  linarith

/-- 1 and 3.5 as two channels of one pixel. -/
def pair : Tensor F32 := ⟨1, 1, 2, fun _ _ k => if k = 0 then ⟨0x3F800000#32⟩ else ⟨0x40600000#32⟩⟩

example : ∃ m, metadata [pair] = some m ∧ ∃ parts : List (List Str), (shown m (stored m pair))[0]? =
    some (List.replicate 8 32 ++ joined [44, 32] (parts.map fun p => 40 :: joined [44, 32] p ++ [41])) ∧
    ∃ p s q, parts[0]? = some p ∧ p[1]? = some s ∧ Says s q ∧ |q - number ⟨0x40600000#32⟩| ≤ 1 / 1000 := by
  have e : [pair].flatMap elements = [⟨0x3F800000#32⟩, ⟨0x40600000#32⟩] := by decide
  obtain ⟨h1, -, h3, h4, h5⟩ := sample_column
  have hl : ∀ x ∈ [pair].flatMap elements, Finite x ∧ |number x| ≤ 4 := by
    rw [e]
    intro x hx
    simp only [List.mem_cons, List.not_mem_nil, or_false] at hx
    rcases hx with rfl | rfl
    · exact h1 _ h3
    · exact h1 _ h4
  obtain ⟨m, m1, -, m3, m4⟩ := C159_pixels_partial [pair] 4 (by norm_num) (by rw [e]; decide) hl
    ⟨_, by rw [e]; exact List.mem_cons_self, _, by rw [e]; exact List.mem_cons_of_mem _ List.mem_cons_self, h5⟩
  have h8 := m3 8 (by
    intro x hx y hy
    have g1 := abs_le.1 (hl x hx).2
    have g2 := abs_le.1 (hl y hy).2
    linarith)
  obtain ⟨-, r⟩ := m4 pair (by simp) (by decide) (by decide)
  obtain ⟨parts, p1, -, p3⟩ := r 0 (by decide)
  obtain ⟨p, p4, -, p5⟩ := p3 0 (by decide)
  obtain ⟨s, q, s1, s2, s3⟩ := p5 1 (by decide)
  refine ⟨m, m1, parts, p1, p, s, q, p4, s1, s2, s3.trans ?_⟩
  have t : (1 : ℚ) / 2 ^ 149 ≤ 1 / 10 ^ 6 := by norm_num
  generalize (1 : ℚ) / 2 ^ 149 = t' at *
  linarith

end Verif.ShowColumn
