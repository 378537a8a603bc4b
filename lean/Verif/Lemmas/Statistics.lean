import Verif.Model.Statistics
import Verif.Props.C29_C32_Views
import Mathlib.Algebra.BigOperators.Group.List.Basic
import Mathlib.Algebra.BigOperators.Ring.List
import Mathlib.Algebra.Order.Field.Basic
import Mathlib.Tactic.Ring
import Mathlib.Tactic.FieldSimp
import Mathlib.Tactic.Linarith
import Mathlib.Tactic.LinearCombination
import Mathlib.Tactic.Positivity

namespace Verif.Statistics
open Verif Views

set_option linter.unusedSectionVars false

variable {F : Type} [Field F] [LinearOrder F] [IsStrictOrderedRing F]

/-- Sum of squared distances from `m`. -/
def squares (m : F) (l : List F) : F := (l.map fun v => (v - m) * (v - m)).sum

theorem squares_expand (m : F) (l : List F) :
    squares m l = (l.map fun v => v * v).sum - 2 * m * l.sum + (l.length : F) * (m * m) := by
  induction l with
  | nil => simp [squares]
  | cons x xs ih =>
    have : squares m (x :: xs) = (x - m) * (x - m) + squares m xs := by simp [squares]
    rw [this, ih]
    simp only [List.map_cons, List.sum_cons, List.length_cons, Nat.cast_add, Nat.cast_one]
    ring

theorem squares_nonneg (m : F) (l : List F) : 0 ≤ squares m l := by
  unfold squares
  apply List.sum_nonneg
  intro x hx
  rw [List.mem_map] at hx
  obtain ⟨v, _, rfl⟩ := hx
  exact mul_self_nonneg _

theorem squares_eq_zero {m : F} {l : List F} (h : squares m l = 0) : ∀ v ∈ l, v = m := by
  induction l with
  | nil => simp
  | cons x xs ih =>
    have e : squares m (x :: xs) = (x - m) * (x - m) + squares m xs := by simp [squares]
    rw [e] at h
    have h1 := mul_self_nonneg (x - m)
    have h2 := squares_nonneg m xs
    have h3 : (x - m) * (x - m) = 0 := by linarith
    have h4 : squares m xs = 0 := by linarith
    intro v hv
    rcases List.mem_cons.mp hv with rfl | hv
    · have := mul_self_eq_zero.mp h3
      linarith
    · exact ih h4 v hv

/-- The running average is the average. -/
theorem mean_fold (l : List F) : l.foldl meanStep (0, 0) = (l.sum / (l.length : F), (l.length : F)) := by
  induction l using List.reverseRecOn with
  | nil => simp
  | append_singleton l x ih =>
    rw [List.foldl_append, ih]
    simp only [List.foldl_cons, List.foldl_nil, meanStep, List.sum_append, List.sum_cons, List.sum_nil, add_zero, List.length_append,
      List.length_cons, List.length_nil, Nat.cast_add, Nat.cast_one, zero_add]
    have hn : (0 : F) ≤ (l.length : F) := Nat.cast_nonneg _
    have h1 : (l.length : F) + 1 ≠ 0 := by positivity
    refine Prod.ext ?_ rfl
    show l.sum / (l.length : F) + (x - l.sum / (l.length : F)) / ((l.length : F) + 1) = (l.sum + x) / ((l.length : F) + 1)
    rcases Nat.eq_zero_or_pos l.length with h0 | hp
    · rw [List.length_eq_zero_iff] at h0
      subst h0
      simp
    · have h2 : (l.length : F) ≠ 0 := by positivity
      field_simp
      ring

/-- The state of the running statistics in closed form. -/
theorem running_closed (lo hi : F) (l : List F) :
    (l.foldl Running.add (Running.init lo hi)).total = (l.length : F) ∧
    (l.foldl Running.add (Running.init lo hi)).mean = l.sum / (l.length : F) ∧
    (l.foldl Running.add (Running.init lo hi)).m2 = (l.map fun v => v * v).sum - l.sum * l.sum / (l.length : F) := by
  induction l using List.reverseRecOn with
  | nil => simp [Running.init]
  | append_singleton l x ih =>
    rw [List.foldl_append]
    obtain ⟨h1, h2, h3⟩ := ih
    generalize l.foldl Running.add (Running.init lo hi) = s at *
    have hn : (0 : F) ≤ (l.length : F) := Nat.cast_nonneg _
    have hne : (l.length : F) + 1 ≠ 0 := by positivity
    simp only [List.foldl_cons, List.foldl_nil, Running.add, List.sum_append, List.sum_cons, List.sum_nil, add_zero, List.length_append,
      List.length_cons, List.length_nil, Nat.cast_add, Nat.cast_one, zero_add, List.map_append, List.map_cons, List.map_nil]
    rw [h1, h2, h3]
    rcases Nat.eq_zero_or_pos l.length with h0 | hp
    · rw [List.length_eq_zero_iff] at h0
      subst h0
      simp
    · have h2 : (l.length : F) ≠ 0 := by positivity
      refine ⟨rfl, ?_, ?_⟩
      · field_simp
        ring
      · field_simp
        ring

theorem m2_squares (l : List F) (h : l ≠ []) :
    (l.map fun v => v * v).sum - l.sum * l.sum / (l.length : F) = squares (l.sum / (l.length : F)) l := by
  rw [squares_expand]
  have hp : 0 < l.length := List.length_pos_iff.mpr h
  have h2 : (l.length : F) ≠ 0 := by positivity
  field_simp
  ring

/-- Running minimum and maximum. -/
theorem running_range (lo hi : F) (l : List F) (hl : ∀ v ∈ l, lo ≤ v ∧ v ≤ hi) (hne : l ≠ []) :
    (l.foldl Running.add (Running.init lo hi)).min ∈ l ∧ (∀ v ∈ l, (l.foldl Running.add (Running.init lo hi)).min ≤ v) ∧
    (l.foldl Running.add (Running.init lo hi)).max ∈ l ∧ (∀ v ∈ l, v ≤ (l.foldl Running.add (Running.init lo hi)).max) := by
  have key : ∀ (l : List F), (∀ v ∈ l, lo ≤ v ∧ v ≤ hi) →
      let s := l.foldl Running.add (Running.init lo hi)
      (if l = [] then s.min = hi else s.min ∈ l) ∧ (∀ v ∈ l, s.min ≤ v) ∧ (if l = [] then s.max = lo else s.max ∈ l) ∧ (∀ v ∈ l, v ≤ s.max) := by
    intro l hl
    induction l using List.reverseRecOn with
    | nil => simp [Running.init]
    | append_singleton l x ih =>
      obtain ⟨h1, h2, h3, h4⟩ := ih (fun v hv => hl v (List.mem_append_left _ hv))
      have hx := hl x (List.mem_append_right _ (List.mem_singleton.mpr rfl))
      have hnil : l ++ [x] ≠ [] := by simp
      rw [List.foldl_append]
      generalize hs : l.foldl Running.add (Running.init lo hi) = s at *
      simp only [List.foldl_cons, List.foldl_nil, Running.add, if_neg hnil]
      refine ⟨?_, ?_, ?_, ?_⟩
      · split
        · simp
        · rename_i hlt
          by_cases hl0 : l = []
          · rw [if_pos hl0] at h1
            have : s.min = x := le_antisymm (not_lt.mp hlt) (by rw [h1]; exact hx.2)
            rw [this]; simp
          · rw [if_neg hl0] at h1
            exact List.mem_append_left _ h1
      · intro v hv
        rcases List.mem_append.mp hv with hv | hv
        · have := h2 v hv
          split
          · exact le_trans (le_of_lt ‹_›) this
          · exact this
        · rw [List.mem_singleton.mp hv]
          split
          · exact le_refl _
          · exact not_lt.mp ‹_›
      · split
        · simp
        · rename_i hlt
          by_cases hl0 : l = []
          · rw [if_pos hl0] at h3
            have : s.max = x := le_antisymm (by rw [h3]; exact hx.1) (not_lt.mp hlt)
            rw [this]; simp
          · rw [if_neg hl0] at h3
            exact List.mem_append_left _ h3
      · intro v hv
        rcases List.mem_append.mp hv with hv | hv
        · have := h4 v hv
          split
          · exact le_trans this (le_of_lt ‹_›)
          · exact this
        · rw [List.mem_singleton.mp hv]
          split
          · exact le_refl _
          · exact not_lt.mp ‹_›
  obtain ⟨h1, h2, h3, h4⟩ := key l hl
  rw [if_neg hne] at h1 h3
  exact ⟨h1, h2, h3, h4⟩

theorem foldl_update (s : Running F) (ts : List (Tensor F)) : ts.foldl Running.update s = (ts.flatMap elements).foldl Running.add s := by
  induction ts generalizing s with
  | nil => rfl
  | cons t ts ih => rw [List.foldl_cons, ih, List.flatMap_cons, List.foldl_append]; rfl

theorem foldl_min (l : List F) : ∀ m, l.foldl minFrom none = some m ↔ (m ∈ l ∧ ∀ v ∈ l, m ≤ v) := by
  induction l using List.reverseRecOn with
  | nil => simp
  | append_singleton l x ih =>
    intro m
    rw [List.foldl_append]
    simp only [List.foldl_cons, List.foldl_nil]
    cases hf : l.foldl minFrom none with
    | none =>
      have hl : l = [] := by
        by_contra hne
        have : ∀ l : List F, ∀ o, o ≠ none → l.foldl minFrom o ≠ none := by
          intro l
          induction l with
          | nil => intro o h; exact h
          | cons y ys ihy => intro o h; exact ihy _ (by cases o <;> simp [minFrom])
        obtain ⟨y, ys, rfl⟩ := List.exists_cons_of_ne_nil hne
        exact this ys (minFrom none y) (by simp [minFrom]) hf
      subst hl
      simp [minFrom, eq_comm]
      rintro rfl; exact le_refl _
    | some m0 =>
      obtain ⟨h1, h2⟩ := (ih m0).mp hf
      simp only [minFrom, Option.some.injEq]
      constructor
      · rintro rfl
        constructor
        · split
          · simp
          · exact List.mem_append_left _ h1
        · intro v hv
          rcases List.mem_append.mp hv with hv | hv
          · split
            · exact le_trans (le_of_lt ‹_›) (h2 v hv)
            · exact h2 v hv
          · rw [List.mem_singleton.mp hv]
            split
            · exact le_refl _
            · exact not_lt.mp ‹_›
      · rintro ⟨h3, h4⟩
        have hx := h4 x (by simp)
        have hm0 := h4 m0 (List.mem_append_left _ h1)
        rcases List.mem_append.mp h3 with h3 | h3
        · have := h2 m h3
          have e : m = m0 := le_antisymm hm0 this
          subst e
          rw [if_neg (not_lt.mpr hx)]
        · obtain rfl := List.mem_singleton.mp h3
          split
          · rfl
          · exact le_antisymm (not_lt.mp ‹_›) hm0

theorem foldl_max (l : List F) : ∀ m, l.foldl maxFrom none = some m ↔ (m ∈ l ∧ ∀ v ∈ l, v ≤ m) := by
  induction l using List.reverseRecOn with
  | nil => simp
  | append_singleton l x ih =>
    intro m
    rw [List.foldl_append]
    simp only [List.foldl_cons, List.foldl_nil]
    cases hf : l.foldl maxFrom none with
    | none =>
      have hl : l = [] := by
        by_contra hne
        have : ∀ l : List F, ∀ o, o ≠ none → l.foldl maxFrom o ≠ none := by
          intro l
          induction l with
          | nil => intro o h; exact h
          | cons y ys ihy => intro o h; exact ihy _ (by cases o <;> simp [maxFrom])
        obtain ⟨y, ys, rfl⟩ := List.exists_cons_of_ne_nil hne
        exact this ys (maxFrom none y) (by simp [maxFrom]) hf
      subst hl
      simp [maxFrom, eq_comm]
      rintro rfl; exact le_refl _
    | some m0 =>
      obtain ⟨h1, h2⟩ := (ih m0).mp hf
      simp only [maxFrom, Option.some.injEq]
      constructor
      · rintro rfl
        constructor
        · split
          · simp
          · exact List.mem_append_left _ h1
        · intro v hv
          rcases List.mem_append.mp hv with hv | hv
          · split
            · exact le_trans (h2 v hv) (le_of_lt ‹_›)
            · exact h2 v hv
          · rw [List.mem_singleton.mp hv]
            split
            · exact le_refl _
            · exact not_lt.mp ‹_›
      · rintro ⟨h3, h4⟩
        have hx := h4 x (by simp)
        have hm0 := h4 m0 (List.mem_append_left _ h1)
        rcases List.mem_append.mp h3 with h3 | h3
        · have := h2 m h3
          have e : m = m0 := le_antisymm this hm0
          subst e
          rw [if_neg (not_lt.mpr hx)]
        · obtain rfl := List.mem_singleton.mp h3
          split
          · rfl
          · exact le_antisymm hm0 (not_lt.mp ‹_›)

theorem maxAbs_spec (l : List F) :
    let m := l.foldl (fun m v => if m < (if v < 0 then -v else v) then (if v < 0 then -v else v) else m) (0 : F)
    0 ≤ m ∧ ∀ v ∈ l, |v| ≤ m := by
  induction l using List.reverseRecOn with
  | nil => simp
  | append_singleton l x ih =>
    rw [List.foldl_append]
    simp only [List.foldl_cons, List.foldl_nil]
    have hx : (if x < 0 then -x else x) = |x| := by
      split
      · rw [abs_of_neg ‹_›]
      · rw [abs_of_nonneg (not_lt.mp ‹_›)]
    rw [hx]
    obtain ⟨h1, h2⟩ := ih
    generalize l.foldl (fun m v => if m < (if v < 0 then -v else v) then (if v < 0 then -v else v) else m) (0 : F) = m at *
    refine ⟨?_, ?_⟩
    · split
      · exact abs_nonneg _
      · exact h1
    · intro v hv
      rcases List.mem_append.mp hv with hv | hv
      · split
        · exact le_trans (h2 v hv) (le_of_lt ‹_›)
        · exact h2 v hv
      · rw [List.mem_singleton.mp hv]
        split
        · exact le_refl _
        · exact not_lt.mp ‹_›

theorem foldl_add_sum (l : List F) (f : F → F) (z : F) : l.foldl (fun s v => s + f v) z = z + (l.map f).sum := by
  induction l generalizing z with
  | nil => simp
  | cons x xs ih => rw [List.foldl_cons, ih, List.map_cons, List.sum_cons, add_assoc]

end Verif.Statistics
