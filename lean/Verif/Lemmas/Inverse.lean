import Verif.Model.Inverse
import Mathlib.Algebra.BigOperators.Ring.Finset
import Mathlib.Algebra.BigOperators.Group.Finset.Basic
import Mathlib.Algebra.BigOperators.Field
import Mathlib.Data.List.Range
import Mathlib.Tactic.Ring
import Mathlib.Tactic.FieldSimp
import Mathlib.Tactic.LinearCombination

/-
Invariants of the Gauss–Jordan elimination.
-/
namespace Verif.Inverse
open Verif Views

set_option linter.unusedSectionVars false

variable {F : Type} [Field F] [DecidableEq F]

/-- The invariant of the outer loop before iteration `i`. -/
structure Inv (n : Nat) (a : Mat F) (i : Nat) (m : Mat F) : Prop where
  unit : ∀ r c, r < n → c < i → m r c = if r = c then 1 else 0
  lin : ∀ r c, r < n → c < n → m r c = ∑ j ∈ Finset.range n, m r (n + j) * a j c
  ker : ∀ v : Nat → F, (∀ r, r < n → ∑ c ∈ Finset.range n, m r c * v c = 0) →
    ∀ r, r < n → ∑ c ∈ Finset.range n, a r c * v c = 0

theorem inv_augment (n : Nat) (a : Mat F) : Inv n a 0 (augment n a) := by
  refine ⟨fun r c _ h => absurd h (by omega), ?_, ?_⟩
  · intro r c hr hc
    have e : ∀ j, augment n a r (n + j) = if r = j then 1 else 0 := by
      intro j
      unfold augment
      rw [if_neg (by omega), show n + j - n = j by omega]
    simp only [e, ite_mul, one_mul, zero_mul]
    rw [Finset.sum_ite_eq, if_pos (Finset.mem_range.mpr hr)]
    unfold augment
    rw [if_pos hc]
  · intro v h r hr
    rw [← h r hr]
    apply Finset.sum_congr rfl
    intro c hc
    rw [Finset.mem_range] at hc
    unfold augment
    rw [if_pos hc]

theorem pivotRow_spec {n : Nat} {m : Mat F} {i p : Nat} (hi : i < n) (h : pivotRow n m i = some p) : i ≤ p ∧ p < n ∧ m p i ≠ 0 := by
  unfold pivotRow at h
  split at h
  · have h1 := List.find?_some h
    have h2 := List.mem_of_find?_eq_some h
    simp only [ne_eq, decide_not, Bool.and_eq_true, decide_eq_true_eq, Bool.not_eq_true', decide_eq_false_iff_not] at h1
    exact ⟨by omega, List.mem_range.mp h2, h1.2⟩
  · rename_i hne
    rw [Option.some.injEq] at h
    subst h
    exact ⟨le_refl _, hi, hne⟩

theorem pivotRow_none {n : Nat} {m : Mat F} {i : Nat} (h : pivotRow n m i = none) : ∀ r, i ≤ r → r < n → m r i = 0 := by
  unfold pivotRow at h
  split at h
  · rename_i h0
    intro r hr hn
    rcases Nat.lt_or_eq_of_le hr with hlt | rfl
    · rw [List.find?_eq_none] at h
      have := h r (List.mem_range.mpr hn)
      simpa [hlt] using this
    · exact h0
  · exact absurd h (by simp)

theorem inv_swap {n : Nat} {a m : Mat F} {i p : Nat} (h : Inv n a i m) (hi : i < n) (hip : i ≤ p) (hp : p < n) :
    Inv n a i (swapRows m i p) := by
  have row : ∀ r, r < n → ∃ r', r' < n ∧ swapRows m i p r = m r' ∧ (r < i → r' = r) ∧ (i ≤ r → i ≤ r') := by
    intro r hr
    unfold swapRows
    by_cases h1 : r = i
    · exact ⟨p, hp, by simp [h1], by omega, by omega⟩
    · by_cases h2 : r = p
      · exact ⟨i, hi, by simp [h2]; intro h; omega, by omega, by omega⟩
      · exact ⟨r, hr, by simp [h1, h2], by omega, by omega⟩
  refine ⟨?_, ?_, ?_⟩
  · intro r c hr hc
    obtain ⟨r', hr', e, h1, h2⟩ := row r hr
    rw [e, h.unit r' c hr' hc]
    by_cases hri : r < i
    · rw [h1 hri]
    · have := h2 (by omega)
      rw [if_neg (by omega), if_neg (by omega)]
  · intro r c hr hc
    obtain ⟨r', hr', e, _, _⟩ := row r hr
    rw [e]
    exact h.lin r' c hr' hc
  · intro v hv
    apply h.ker v
    intro r hr
    by_cases h1 : r = i
    · have := hv p hp
      unfold swapRows at this
      by_cases h2 : p = i
      · simp only [h2, if_true] at this
        rw [h1]; exact this
      · simp only [h2, if_false, if_true] at this
        rw [h1]; exact this
    · by_cases h2 : r = p
      · have := hv i hi
        unfold swapRows at this
        simp only [if_true] at this
        rw [h2]; exact this
      · have := hv r hr
        unfold swapRows at this
        simp only [h1, h2, if_false] at this
        exact this

theorem scaleRow_other {n : Nat} {m : Mat F} {i r c : Nat} (h : r ≠ i) : scaleRow n m i r c = m r c := by
  unfold scaleRow; rw [if_neg (fun hh => h hh.1)]

theorem scaleRow_pivot {n : Nat} {a m : Mat F} {i c : Nat} (h : Inv n a i m) (hi : i < n) (hc : c < 2 * n) :
    scaleRow n m i i c = m i c / m i i := by
  unfold scaleRow
  by_cases hic : i ≤ c
  · rw [if_pos ⟨rfl, hic, hc⟩]
  · rw [if_neg (by omega), h.unit i c hi (by omega), if_neg (by omega), zero_div]

theorem inv_scale {n : Nat} {a m : Mat F} {i : Nat} (h : Inv n a i m) (hi : i < n) (hp : m i i ≠ 0) : Inv n a i (scaleRow n m i) := by
  refine ⟨?_, ?_, ?_⟩
  · intro r c hr hc
    by_cases hri : r = i
    · subst hri
      rw [scaleRow_pivot h hr (by omega), h.unit r c hr hc, if_neg (by omega), zero_div]
    · rw [scaleRow_other hri, h.unit r c hr hc]
  · intro r c hr hc
    by_cases hri : r = i
    · subst hri
      rw [scaleRow_pivot h hr (by omega), h.lin r c hr hc, Finset.sum_div]
      apply Finset.sum_congr rfl
      intro j hj
      rw [Finset.mem_range] at hj
      rw [scaleRow_pivot h hr (by omega)]
      ring
    · rw [scaleRow_other hri, h.lin r c hr hc]
      apply Finset.sum_congr rfl
      intro j _
      rw [scaleRow_other hri]
  · intro v hv
    apply h.ker v
    intro r hr
    have := hv r hr
    by_cases hri : r = i
    · subst hri
      have e : ∑ c ∈ Finset.range n, scaleRow n m r r c * v c = (∑ c ∈ Finset.range n, m r c * v c) / m r r := by
        rw [Finset.sum_div]
        apply Finset.sum_congr rfl
        intro c hc
        rw [Finset.mem_range] at hc
        rw [scaleRow_pivot h hr (by omega)]
        ring
      rw [e, div_eq_zero_iff] at this
      exact this.resolve_right hp
    · rw [← this]
      apply Finset.sum_congr rfl
      intro c _
      rw [scaleRow_other hri]

theorem scaleRow_one {n : Nat} {m : Mat F} {i : Nat} (hi : i < n) (hp : m i i ≠ 0) : scaleRow n m i i i = 1 := by
  unfold scaleRow
  rw [if_pos ⟨rfl, le_refl _, by omega⟩, div_self hp]

/-- Clearing row by row is clearing all other rows against the unchanged pivot row. -/
theorem clearColumn_aux (n k : Nat) (m : Mat F) (i : Nat) :
    (List.range k).foldl (fun m j => if j = i then m else subtractRow n m i j) m =
      fun r c => if r < k ∧ r ≠ i ∧ c < 2 * n then m r c - m r i * m i c else m r c := by
  induction k with
  | zero => funext r c; simp
  | succ k ih =>
    rw [List.range_succ, List.foldl_append, ih]
    simp only [List.foldl_cons, List.foldl_nil]
    funext r c
    by_cases hk : k = i
    · rw [if_pos hk]
      by_cases hr : r < k ∧ r ≠ i ∧ c < 2 * n
      · rw [if_pos hr, if_pos ⟨by omega, hr.2⟩]
      · rw [if_neg hr, if_neg (by omega)]
    · rw [if_neg hk]
      unfold subtractRow
      dsimp only
      by_cases hrk : r = k ∧ c < 2 * n
      · obtain ⟨rfl, hc⟩ := hrk
        simp [hk, hc]
      · rw [if_neg hrk]
        by_cases hr : r < k ∧ r ≠ i ∧ c < 2 * n
        · rw [if_pos hr, if_pos ⟨by omega, hr.2⟩]
        · rw [if_neg hr, if_neg (by omega)]

theorem clearColumn_get {n : Nat} {m : Mat F} {i r c : Nat} (hr : r < n) (hc : c < 2 * n) :
    clearColumn n m i r c = if r = i then m i c else m r c - m r i * m i c := by
  unfold clearColumn
  rw [clearColumn_aux]
  by_cases h : r = i
  · simp [h]
  · simp [h, hr, hc]

theorem inv_clear {n : Nat} {a m : Mat F} {i : Nat} (h : Inv n a i m) (hi : i < n) (hp : m i i = 1) : Inv n a (i + 1) (clearColumn n m i) := by
  refine ⟨?_, ?_, ?_⟩
  · intro r c hr hc
    rw [clearColumn_get hr (by omega)]
    by_cases hci : c = i
    · subst hci
      by_cases hri : r = c
      · simp [hri, hp]
      · simp [hri, hp]
    · have hc' : c < i := by omega
      have hic : m i c = 0 := by rw [h.unit i c hi hc', if_neg (by omega)]
      by_cases hri : r = i
      · rw [if_pos hri, hic, if_neg (by omega)]
      · rw [if_neg hri, hic, mul_zero, sub_zero, h.unit r c hr hc']
  · intro r c hr hc
    rw [clearColumn_get hr (by omega)]
    have e : ∀ j ∈ Finset.range n, clearColumn n m i r (n + j) * a j c =
        if r = i then m i (n + j) * a j c else m r (n + j) * a j c - m r i * (m i (n + j) * a j c) := by
      intro j hj
      rw [Finset.mem_range] at hj
      rw [clearColumn_get hr (by omega)]
      split
      · rfl
      · ring
    rw [Finset.sum_congr rfl e]
    by_cases hri : r = i
    · simp only [hri, if_true]
      exact h.lin i c hi hc
    · simp only [hri, if_false]
      rw [Finset.sum_sub_distrib, ← Finset.mul_sum, ← h.lin r c hr hc, ← h.lin i c hi hc]
  · intro v hv
    apply h.ker v
    have hpiv : ∑ c ∈ Finset.range n, m i c * v c = 0 := by
      rw [← hv i hi]
      apply Finset.sum_congr rfl
      intro c hc
      rw [Finset.mem_range] at hc
      rw [clearColumn_get hi (by omega), if_pos rfl]
    intro r hr
    by_cases hri : r = i
    · rw [hri]; exact hpiv
    · have e : ∑ c ∈ Finset.range n, clearColumn n m i r c * v c =
          ∑ c ∈ Finset.range n, m r c * v c - m r i * ∑ c ∈ Finset.range n, m i c * v c := by
        rw [Finset.mul_sum, ← Finset.sum_sub_distrib]
        apply Finset.sum_congr rfl
        intro c hc
        rw [Finset.mem_range] at hc
        rw [clearColumn_get hr (by omega), if_neg hri]
        ring
      have := hv r hr
      rw [e, hpiv, mul_zero, sub_zero] at this
      exact this

theorem inv_step {n : Nat} {a m m' : Mat F} {i : Nat} (h : Inv n a i m) (hi : i < n) (hs : step n m i = some m') : Inv n a (i + 1) m' := by
  unfold step at hs
  cases hp : pivotRow n m i with
  | none => rw [hp] at hs; exact absurd hs (by simp)
  | some p =>
    rw [hp, Option.map_some, Option.some.injEq] at hs
    subst hs
    obtain ⟨h1, h2, h3⟩ := pivotRow_spec hi hp
    have hsw := inv_swap h hi h1 h2
    have hne : swapRows m i p i i ≠ 0 := by simpa [swapRows] using h3
    exact inv_clear (inv_scale hsw hi hne) hi (scaleRow_one hi hne)

/-- Failing to find a pivot leaves a nonzero vector that the argument maps to zero. -/
theorem step_none {n : Nat} {a m : Mat F} {i : Nat} (h : Inv n a i m) (hi : i < n) (hs : step n m i = none) :
    ∃ v : Nat → F, v i ≠ 0 ∧ ∀ r, r < n → ∑ c ∈ Finset.range n, a r c * v c = 0 := by
  unfold step at hs
  rw [Option.map_eq_none_iff] at hs
  have hz := pivotRow_none hs
  refine ⟨fun c => if c < i then - m c i else if c = i then 1 else 0, by simp, h.ker _ ?_⟩
  intro r hr
  have split : ∀ c ∈ Finset.range n, m r c * (if c < i then - m c i else if c = i then 1 else 0) =
      (if c = r then (if r < i then - m r i else 0) else 0) + (if c = i then m r i else 0) := by
    intro c _
    by_cases hci : c < i
    · rw [if_pos hci, h.unit r c hr hci, if_neg (show ¬ c = i by omega), add_zero]
      by_cases hcr : r = c
      · subst hcr; simp [hci]
      · rw [if_neg hcr, if_neg (fun hh => hcr hh.symm), zero_mul]
    · rw [if_neg hci]
      by_cases hc : c = i
      · subst hc
        simp only [if_true, mul_one]
        by_cases hcr : c = r
        · subst hcr; simp
        · rw [if_neg hcr, zero_add]
      · rw [if_neg hc, if_neg hc, mul_zero, add_zero]
        by_cases hcr : c = r
        · subst hcr; simp [hci]
        · rw [if_neg hcr]
  rw [Finset.sum_congr rfl split, Finset.sum_add_distrib, Finset.sum_ite_eq', Finset.sum_ite_eq',
    if_pos (Finset.mem_range.mpr hr), if_pos (Finset.mem_range.mpr hi)]
  by_cases hri : r < i
  · simp [hri]
  · rw [if_neg hri, zero_add]
    exact hz r (by omega) hr

theorem eliminate_aux (n k : Nat) (hk : k ≤ n) (a : Mat F) :
    (∀ m, (List.range k).foldlM (step n) (augment n a) = some m → Inv n a k m) ∧
    ((List.range k).foldlM (step n) (augment n a) = none →
      ∃ (v : Nat → F) (i : Nat), i < n ∧ v i ≠ 0 ∧ ∀ r, r < n → ∑ c ∈ Finset.range n, a r c * v c = 0) := by
  induction k with
  | zero =>
    constructor
    · intro m hm
      have : augment n a = m := by simpa using hm
      subst this
      exact inv_augment n a
    · intro h; simp at h
  | succ k ih =>
    obtain ⟨ih1, ih2⟩ := ih (by omega)
    rw [List.range_succ, List.foldlM_append]
    cases hf : (List.range k).foldlM (step n) (augment n a) with
    | none =>
      refine ⟨fun m hm => absurd hm (by simp), fun _ => ih2 hf⟩
    | some m0 =>
      have hinv := ih1 m0 hf
      have e : (some m0 >>= fun s => List.foldlM (step n) s [k]) = step n m0 k := by
        simp
      rw [e]
      refine ⟨fun m hm => inv_step hinv (by omega) hm, fun hn => ?_⟩
      obtain ⟨v, hv, hz⟩ := step_none hinv (by omega) hn
      exact ⟨v, k, by omega, hv, hz⟩

end Verif.Inverse
