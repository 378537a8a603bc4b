import Mathlib.Tactic.Linarith
import Mathlib.Tactic.Ring
import Mathlib.Tactic.FieldSimp
import Mathlib.Tactic.Positivity
import Mathlib.Data.List.Count
import Verif.Model.BinaryDataset
import Verif.Spec.FloatStatistics

/-!
# C26: what the text of a tensor tells

Duplicates are found by the text of the given tensors. Texts are equal exactly if the shapes are equal and all elements print the same, and elements that print the same
differ by at most 10^-15.
-/
namespace Verif.BinaryDataset
open Verif FloatBits FloatStatistics

/-- The number of a value. -/
def Tok.isValue : Tok → Bool
  | .num _ _ => true
  | .inf _ => true
  | .nan _ => true
  | _ => false

theorem fixed15_value (x : BitVec 32) : (fixed15 x).isValue = true := by
  unfold fixed15
  split
  · rfl
  · split <;> rfl

/-- C26. A finite value is printed with its sign and at most half a unit of the 15th decimal away. -/
theorem C26_printed (x : BitVec 32) (h : isFinite x = true) :
    ∃ d : Nat, fixed15 x = .num (neg x) d ∧ abs ((d : ℚ) / 10 ^ 15 - |number ⟨x⟩|) ≤ 1 / (2 * 10 ^ 15) := by
  have hnan : isNaN x = false ∧ isInf x = false := by
    unfold isFinite at h
    unfold isNaN isInf
    simp only [bne_iff_ne, ne_eq] at h
    have : (expo x == 255) = false := by simpa using h
    rw [this]
    exact ⟨rfl, rfl⟩
  have hu : |number ⟨x⟩| = (magUnits (expo x) (frac x) : ℚ) / 2 ^ 149 := by
    unfold number value
    rw [abs_div, abs_of_pos (show (0 : ℚ) < 2 ^ 149 by positivity)]
    congr 1
    split <;> simp
  unfold fixed15
  rw [hnan.1, hnan.2]
  simp only [Bool.false_eq_true, if_false]
  generalize hm : magUnits (expo x) (frac x) = m at *
  have e := Nat.div_add_mod (m * 10 ^ 15) (2 ^ 149)
  have hr := Nat.mod_lt (m * 10 ^ 15) (show 0 < 2 ^ 149 by positivity)
  generalize m * 10 ^ 15 / 2 ^ 149 = q at *
  generalize hR : m * 10 ^ 15 % 2 ^ 149 = r at *
  have e' : (2 : ℚ) ^ 149 * q + r = m * 10 ^ 15 := by exact_mod_cast e
  have hr' : (r : ℚ) < 2 ^ 149 := by exact_mod_cast hr
  have hr0 : (0 : ℚ) ≤ r := by positivity
  have hp : (0 : ℚ) < 2 ^ 149 := by positivity
  refine ⟨_, rfl, ?_⟩
  rw [hu]
  have key : ∀ d : ℚ, |d * 2 ^ 149 - m * 10 ^ 15| ≤ 2 ^ 149 / 2 → |d / 10 ^ 15 - (m : ℚ) / 2 ^ 149| ≤ 1 / (2 * 10 ^ 15) := by
    intro d hd
    have e1 : d / 10 ^ 15 - (m : ℚ) / 2 ^ 149 = (d * 2 ^ 149 - m * 10 ^ 15) / (10 ^ 15 * 2 ^ 149) := by
      generalize (2 : ℚ) ^ 149 = p at *
      field_simp
    rw [e1, abs_div, abs_of_pos (show (0 : ℚ) < 10 ^ 15 * 2 ^ 149 by positivity), div_le_div_iff₀ (by positivity) (by positivity)]
    generalize |d * 2 ^ 149 - (m : ℚ) * 10 ^ 15| = A at *
    generalize (2 : ℚ) ^ 149 = p at *
    linarith
  refine key _ ?_
  have half : ∀ b : Prop, ∀ [Decidable b], (b → 2 ^ 149 ≤ 2 * (r : ℚ)) → (¬b → 2 * (r : ℚ) ≤ 2 ^ 149) →
      |((if b then q + 1 else q : Nat) : ℚ) * 2 ^ 149 - m * 10 ^ 15| ≤ 2 ^ 149 / 2 := by
    intro b _ h1 h2
    rw [← e']
    generalize (2 : ℚ) ^ 149 = p at *
    split
    · next hb =>
      have := h1 hb
      push_cast
      rw [show ((q : ℚ) + 1) * p - (p * q + r) = p - r by ring, abs_of_nonneg (by linarith)]
      linarith
    · next hb =>
      have := h2 hb
      rw [show (q : ℚ) * p - (p * q + r) = -r by ring, abs_neg, abs_of_nonneg hr0]
      linarith
  refine half _ ?_ ?_
  · rintro (h | h)
    · exact_mod_cast h.le
    · exact_mod_cast h.1.ge
  · intro h
    rw [not_or] at h
    exact_mod_cast not_lt.1 h.1

/-- C26. Values that print the same have the same sign and differ by at most 10^-15. -/
theorem C26_printed_same (x y : BitVec 32) (hx : isFinite x = true) (hy : isFinite y = true) (h : fixed15 x = fixed15 y) :
    neg x = neg y ∧ |number ⟨x⟩ - number ⟨y⟩| ≤ 1 / 10 ^ 15 := by
  obtain ⟨d, h1, h2⟩ := C26_printed x hx
  obtain ⟨d', h3, h4⟩ := C26_printed y hy
  rw [h1, h3] at h
  injection h with hn hd
  subst hd
  refine ⟨hn, ?_⟩
  have sign : ∀ z : BitVec 32, number ⟨z⟩ = if neg z then -|number ⟨z⟩| else |number ⟨z⟩| := by
    intro z
    have hu : |number ⟨z⟩| = (magUnits (expo z) (frac z) : ℚ) / 2 ^ 149 := by
      unfold number value
      rw [abs_div, abs_of_pos (show (0 : ℚ) < 2 ^ 149 by positivity)]
      congr 1
      split <;> simp
    rw [hu]
    unfold number value
    split
    · push_cast
      ring
    · rfl
  have e : |number ⟨x⟩ - number ⟨y⟩| = abs (|number ⟨x⟩| - |number ⟨y⟩|) := by
    conv_lhs => rw [sign x, sign y, hn]
    cases neg y
    · rfl
    · simp only [if_true]
      rw [show -|number ⟨x⟩| - -|number ⟨y⟩| = -(|number ⟨x⟩| - |number ⟨y⟩|) by ring, abs_neg]
  rw [e]
  have t := abs_sub_le |number ⟨x⟩| ((d : ℚ) / 10 ^ 15) |number ⟨y⟩|
  rw [abs_sub_comm] at h2
  have : (1 : ℚ) / 10 ^ 15 = 1 / (2 * 10 ^ 15) + 1 / (2 * 10 ^ 15) := by norm_num
  rw [this]
  linarith

/-! ### The text of a tensor -/

theorem filter_flatMap {α β : Type} (p : β → Bool) (f : α → List β) (l : List α) : (l.flatMap f).filter p = l.flatMap fun a => (f a).filter p := by
  induction l with
  | nil => rfl
  | cons a l ih => rw [List.flatMap_cons, List.filter_append, ih, List.flatMap_cons]

theorem flatMap_congr {α β : Type} {f g : α → List β} (l : List α) (h : ∀ a ∈ l, f a = g a) : l.flatMap f = l.flatMap g := by
  induction l with
  | nil => rfl
  | cons a l ih => rw [List.flatMap_cons, List.flatMap_cons, h a (by simp), ih fun b hb => h b (List.mem_cons_of_mem _ hb)]

/-- The values in a text are the elements. -/
theorem printed_values (t : Tensor (BitVec 32)) : (printTensor t).filter Tok.isValue =
    (List.range t.chans).flatMap fun k => (List.range t.rows).flatMap fun r => (List.range t.cols).map fun c => fixed15 (t.get r c k) := by
  have h1 : ∀ b : Prop, ∀ [Decidable b], ∀ x y : List Tok, x.filter Tok.isValue = [] → y.filter Tok.isValue = [] → (if b then x else y).filter Tok.isValue = [] := by
    intro b _ x y hx hy
    split <;> assumption
  unfold printTensor
  rw [List.filter_append, filter_flatMap, show [Tok.newline].filter Tok.isValue = [] from rfl, List.nil_append]
  refine flatMap_congr _ fun k _ => ?_
  rw [List.filter_append, List.filter_append, h1 _ _ _ rfl rfl, h1 _ _ _ rfl rfl, List.nil_append, List.append_nil, filter_flatMap]
  refine flatMap_congr _ fun r _ => ?_
  rw [List.filter_append, List.filter_append, h1 _ _ _ rfl rfl, h1 _ _ _ rfl rfl, List.nil_append, List.append_nil, filter_flatMap, List.map_eq_flatMap]
  refine flatMap_congr _ fun c _ => ?_
  rw [List.filter_append, h1 _ _ _ rfl rfl, List.nil_append, List.filter_cons, fixed15_value]
  rfl

theorem count_flatMap_const {α : Type} (p : Tok → Bool) (f : α → List Tok) (n : Nat) (l : List α) (h : ∀ a ∈ l, (f a).countP p = n) : (l.flatMap f).countP p = l.length * n := by
  induction l with
  | nil => simp
  | cons a l ih =>
    rw [List.flatMap_cons, List.countP_append, h a (by simp), ih fun b hb => h b (List.mem_cons_of_mem _ hb), List.length_cons]
    ring

/-- The ends of lines in a text. -/
theorem printed_lines (t : Tensor (BitVec 32)) : (printTensor t).countP (· == Tok.newline) = 1 + t.chans * (t.rows + if 1 < t.chans then 2 else 0) := by
  unfold printTensor
  rw [List.countP_append, count_flatMap_const (· == Tok.newline) _ (t.rows + if 1 < t.chans then 2 else 0), List.length_range]
  · rfl
  · intro k _
    rw [List.countP_append, List.countP_append, count_flatMap_const (· == Tok.newline) _ 1, List.length_range]
    · split
      · rw [show List.countP (· == Tok.newline) [Tok.open_, .newline] = 1 by decide, show List.countP (· == Tok.newline) [Tok.close, .newline] = 1 by decide]
        ring
      · simp
    · intro r _
      rw [List.countP_append, List.countP_append, count_flatMap_const (· == Tok.newline) _ 0]
      · split <;> simp
      · intro c _
        rw [List.countP_append]
        have hv := fixed15_value (t.get r c k)
        have : List.countP (· == Tok.newline) [fixed15 (t.get r c k)] = 0 := by
          revert hv
          cases fixed15 (t.get r c k) <;> simp [Tok.isValue]
        rw [this]
        split <;> simp

/-- The commas of a text. -/
theorem printed_commas (t : Tensor (BitVec 32)) : (printTensor t).countP (· == Tok.comma) = t.chans * (t.rows * (t.cols - 1)) := by
  unfold printTensor
  rw [List.countP_append, count_flatMap_const (· == Tok.comma) _ (t.rows * (t.cols - 1)), List.length_range]
  · simp
  · intro k _
    rw [List.countP_append, List.countP_append, count_flatMap_const (· == Tok.comma) _ (t.cols - 1), List.length_range]
    · split
      · rw [show List.countP (· == Tok.comma) [Tok.open_, .newline] = 0 by decide, show List.countP (· == Tok.comma) [Tok.close, .newline] = 0 by decide]
        ring
      · simp
    · intro r _
      have value : ∀ c, List.countP (· == Tok.comma) [fixed15 (t.get r c k)] = 0 := by
        intro c
        have hv := fixed15_value (t.get r c k)
        revert hv
        cases fixed15 (t.get r c k) <;> simp [Tok.isValue]
      have inner : ((List.range t.cols).flatMap fun c => (if c = 0 then [] else [Tok.comma]) ++ [fixed15 (t.get r c k)]).countP (· == Tok.comma) = t.cols - 1 := by
        rcases Nat.eq_zero_or_pos t.cols with h | h
        · rw [h]
          rfl
        · obtain ⟨n, hn⟩ : ∃ n, t.cols = n + 1 := ⟨t.cols - 1, by omega⟩
          rw [hn, List.range_succ_eq_map, List.flatMap_cons, List.countP_append, List.flatMap_map, count_flatMap_const (· == Tok.comma) _ 1, List.length_range]
          · rw [if_pos rfl, List.nil_append, value]
            omega
          · intro c _
            rw [if_neg (Nat.succ_ne_zero c), List.countP_append, value]
            decide
      rw [List.countP_append, List.countP_append, inner]
      split <;> simp

/-- C26. Two non-empty tensors have the same text exactly if they have the same shape and all elements print the same. -/
theorem C26_text (a b : Tensor (BitVec 32)) (ha : 0 < a.rows ∧ 0 < a.cols ∧ 0 < a.chans) (hb : 0 < b.rows ∧ 0 < b.cols ∧ 0 < b.chans) :
    printTensor a = printTensor b ↔
      (a.rows, a.cols, a.chans) = (b.rows, b.cols, b.chans) ∧ ∀ r c k, r < a.rows → c < a.cols → k < a.chans → fixed15 (a.get r c k) = fixed15 (b.get r c k) := by
  have len : ∀ t : Tensor (BitVec 32), ((printTensor t).filter Tok.isValue).length = t.chans * (t.rows * t.cols) := by
    intro t
    rw [printed_values, List.length_flatMap]
    simp
  constructor
  · intro h
    have n1 := printed_lines a
    have n2 := printed_commas a
    have n3 := len a
    rw [h, printed_lines b] at n1
    rw [h, printed_commas b] at n2
    rw [h, len b] at n3
    obtain ⟨ca, hca⟩ : ∃ n, a.cols = n + 1 := ⟨a.cols - 1, by omega⟩
    obtain ⟨cb, hcb⟩ : ∃ n, b.cols = n + 1 := ⟨b.cols - 1, by omega⟩
    rw [hca, hcb] at n2 n3
    rw [Nat.add_sub_cancel, Nat.add_sub_cancel] at n2
    have e1 : b.chans * b.rows = a.chans * a.rows := by nlinarith
    have e2 : a.chans = b.chans := by
      rw [Nat.mul_add, Nat.mul_add, e1] at n1
      split at n1 <;> split at n1 <;> omega
    have e3 : a.rows = b.rows := by
      rw [e2] at e1
      exact (Nat.eq_of_mul_eq_mul_left hb.2.2 e1).symm
    have e4 : a.cols = b.cols := by
      rw [hca, hcb]
      rw [e2, e3] at n3
      exact (Nat.eq_of_mul_eq_mul_left hb.1 (Nat.eq_of_mul_eq_mul_left hb.2.2 n3)).symm
    refine ⟨by rw [e2, e3, e4], ?_⟩
    have hv := congrArg (List.filter Tok.isValue) h
    rw [printed_values, printed_values, e2, e3, e4] at hv
    intro r c k hr hc hk
    rw [e3] at hr
    rw [e4] at hc
    rw [e2] at hk
    have split : ∀ (n m : Nat) (f g : Nat → List Tok), (∀ i, (f i).length = m) → (∀ i, (g i).length = m) → (List.range n).flatMap f = (List.range n).flatMap g →
        ∀ i, i < n → f i = g i := by
      intro n
      induction n with
      | zero => intro m f g _ _ _ i hi; omega
      | succ n ih =>
        intro m f g hf hg h i hi
        rw [List.range_succ, List.flatMap_append, List.flatMap_append] at h
        have hl : ((List.range n).flatMap f).length = ((List.range n).flatMap g).length := by
          rw [List.length_flatMap, List.length_flatMap]
          congr 1
          exact List.map_congr_left fun j _ => by rw [hf, hg]
        obtain ⟨h1, h2⟩ := List.append_inj h hl
        rcases Nat.lt_or_ge i n with hi' | hi'
        · exact ih m f g hf hg h1 i hi'
        · have : i = n := by omega
          subst this
          simpa using h2
    have hk' := split b.chans (b.rows * b.cols) _ _ (fun k => by rw [List.length_flatMap]; simp) (fun k => by rw [List.length_flatMap]; simp) hv k hk
    have hr' := split b.rows b.cols _ _ (fun r => by simp) (fun r => by simp) hk' r hr
    have := List.map_inj_left.1 hr' c (List.mem_range.2 hc)
    exact this
  · rintro ⟨h1, h2⟩
    obtain ⟨e1, e2, e3⟩ : a.rows = b.rows ∧ a.cols = b.cols ∧ a.chans = b.chans := by simpa using h1
    unfold printTensor
    rw [← e1, ← e2, ← e3]
    congr 1
    refine flatMap_congr _ fun k hk => ?_
    congr 2
    refine flatMap_congr _ fun r hr => ?_
    congr 2
    refine flatMap_congr _ fun c hc => ?_
    rw [h2 r c k (List.mem_range.1 hr) (List.mem_range.1 hc) (List.mem_range.1 hk)]

/-- C26. So two non-empty tensors with an element that differs by more than 10^-15 have different texts. -/
theorem C26_visible (a b : Tensor (BitVec 32)) (ha : 0 < a.rows ∧ 0 < a.cols ∧ 0 < a.chans) (hb : 0 < b.rows ∧ 0 < b.cols ∧ 0 < b.chans) (r c k : Nat)
    (hr : r < a.rows) (hc : c < a.cols) (hk : k < a.chans) (fa : isFinite (a.get r c k) = true) (fb : isFinite (b.get r c k) = true)
    (h : 1 / 10 ^ 15 < |number ⟨a.get r c k⟩ - number ⟨b.get r c k⟩|) : printTensor a ≠ printTensor b := by
  intro he
  have := (C26_printed_same _ _ fa fb (((C26_text a b ha hb).1 he).2 r c k hr hc hk)).2
  linarith

/-- 0.5 is printed with its decimals, and 1 in two places is printed on one line. -/
example : fixed15 0x3F000000#32 = .num false (5 * 10 ^ 14) ∧
    printTensor ⟨1, 2, 1, fun _ _ _ => 0x3F800000#32⟩ = [.newline, .open_, .num false (10 ^ 15), .comma, .num false (10 ^ 15), .close, .newline] := by decide +kernel

/-- 0.5 and -0.1 are visibly different. -/
example : printTensor ⟨1, 1, 1, fun _ _ _ => 0x3F000000#32⟩ ≠ printTensor ⟨1, 1, 1, fun _ _ _ => 0xBDCCCCCD#32⟩ :=
  C26_visible _ _ (by decide) (by decide) 0 0 0 (by decide) (by decide) (by decide) (by decide) (by decide) (by
    have e1 : number ⟨0x3F000000#32⟩ = 1 / 2 := by
      unfold number
      rw [show value (F32.mk 0x3F000000#32).bits = 2 ^ 148 by decide +kernel]
      norm_num
    have e2 : number ⟨0xBDCCCCCD#32⟩ < 0 := by
      unfold number
      refine div_neg_of_neg_of_pos ?_ (by positivity)
      exact_mod_cast (by decide +kernel : value (F32.mk 0xBDCCCCCD#32).bits < 0)
    show 1 / 10 ^ 15 < |number ⟨0x3F000000#32⟩ - number ⟨0xBDCCCCCD#32⟩|
    rw [e1]
    refine lt_of_lt_of_le ?_ (le_abs_self _)
    have : (1 : ℚ) / 10 ^ 15 < 1 / 2 := by norm_num
    linarith)

end Verif.BinaryDataset
