import Verif.Model.Shuffler
import Mathlib.Data.List.Perm.Basic
import Mathlib.Data.List.Nodup
import Mathlib.Data.List.Range

/-!
C18: shuffling is a permutation, for every size, every number of shuffles and all random choices (`C18_permutation`, `C18_bijective`).
C20: splitting and sampling lose and invent nothing (`C20_split`, `C20_sample`).
-/
namespace Verif.Shuffler

theorem swap_perm {α : Type} (l : List α) (i j : Nat) : (swap l i j).Perm l := by
  unfold swap
  split
  · rename_i a b ha hb
    obtain ⟨hi, rfl⟩ := List.getElem?_eq_some_iff.mp ha
    obtain ⟨hj, rfl⟩ := List.getElem?_eq_some_iff.mp hb
    exact List.set_set_perm hi hj
  · exact List.Perm.refl _

theorem shuffle_perm {α : Type} (c : List (Nat × Nat)) (l : List α) : (shuffle c l).Perm l := by
  unfold shuffle
  induction c generalizing l with
  | nil => exact List.Perm.refl _
  | cons x c ih => exact (ih _).trans (swap_perm l x.1 x.2)

/-- After any number of shuffles the shuffler holds the numbers 0..n-1, each exactly once. -/
theorem C18_permutation (size : Nat) (calls : List (List (Nat × Nat))) : (after size calls).Perm (List.range size) := by
  unfold after
  have : ∀ (calls : List (List (Nat × Nat))) (l : List Nat), (calls.foldl (fun l c => shuffle c l) l).Perm l := by
    intro calls
    induction calls with
    | nil => intro l; exact List.Perm.refl _
    | cons c cs ih => intro l; exact (ih _).trans (shuffle_perm c l)
  exact this calls (new size)

/-- Looking up an index below the size never goes out of range, stays below the size, hits every record number, and hits no number twice. -/
theorem C18_bijective (size : Nat) (calls : List (List (Nat × Nat))) :
    (∀ i, i < size → ∃ k, k < size ∧ index (after size calls) i = some k) ∧
    (∀ k, k < size → ∃ i, i < size ∧ index (after size calls) i = some k) ∧
    (∀ i j k, index (after size calls) i = some k → index (after size calls) j = some k → i = j) := by
  have hp := C18_permutation size calls
  have hl : (after size calls).length = size := by simpa using hp.length_eq
  have hn : (after size calls).Nodup := hp.nodup_iff.mpr List.nodup_range
  refine ⟨?_, ?_, ?_⟩
  · intro i hi
    refine ⟨(after size calls)[i]'(by omega), ?_, ?_⟩
    · have : (after size calls)[i]'(by omega) ∈ List.range size := hp.mem_iff.mp (List.getElem_mem _)
      simpa using this
    · exact List.getElem?_eq_getElem (by omega)
  · intro k hk
    have : k ∈ after size calls := hp.mem_iff.mpr (by simpa using hk)
    obtain ⟨i, hi, he⟩ := List.getElem_of_mem this
    exact ⟨i, by omega, by rw [index, List.getElem?_eq_getElem hi, he]⟩
  · intro i j k hi hj
    obtain ⟨h1, e1⟩ := List.getElem?_eq_some_iff.mp hi
    obtain ⟨h2, e2⟩ := List.getElem?_eq_some_iff.mp hj
    exact (List.Nodup.getElem_inj_iff hn).mp (e1.trans e2.symm)

theorem filterMap_range {α : Type} (data : List α) : (List.range data.length).filterMap (data[·]?) = data := by
  induction data with
  | nil => rfl
  | cons a as ih =>
    rw [List.length_cons, List.range_succ_eq_map, List.filterMap_cons]
    simp only [List.getElem?_cons_zero, List.filterMap_map]
    congr 1

theorem picked_length {α : Type} (data : List α) (idx : List Nat) (h : ∀ i ∈ idx, i < data.length) :
    (idx.filterMap (data[·]?)).length = idx.length := by
  induction idx with
  | nil => rfl
  | cons i is ih =>
    have hi := h i List.mem_cons_self
    rw [List.filterMap_cons, List.getElem?_eq_getElem hi]
    simp [ih (fun i hi => h i (List.mem_cons_of_mem _ hi))]

/-- Every input line goes to exactly one of the two outputs (which keep what they held before), the validation part has the requested size, for every random order. -/
theorem C20_split {α : Type} (choices : List (Nat × Nat)) (validation : Nat) (data train valid : List α) (h : validation ≤ data.length) :
    ∃ t v, splitData choices validation data train valid = some (train ++ t, valid ++ v) ∧
      (t ++ v).Perm data ∧ v.length = validation ∧ t.length = data.length - validation := by
  have hp := shuffle_perm choices (List.range data.length)
  have hl : (shuffle choices (List.range data.length)).length = data.length := by simpa using hp.length_eq
  have hm : ∀ i ∈ shuffle choices (List.range data.length), i < data.length := fun i hi => by simpa using hp.mem_iff.mp hi
  unfold splitData
  rw [if_neg (by omega)]
  refine ⟨_, _, rfl, ?_, ?_, ?_⟩
  · rw [← List.filterMap_append, List.take_append_drop]
    have := hp.filterMap (data[·]?)
    rw [filterMap_range] at this
    exact this
  · rw [picked_length _ _ (fun i hi => hm i (List.mem_of_mem_drop hi)), List.length_drop, hl]; omega
  · rw [picked_length _ _ (fun i hi => hm i (List.mem_of_mem_take hi)), List.length_take, hl]; omega

/-- A sample has the requested size, and the input consists of it and the rest: nothing is drawn twice. -/
theorem C20_sample {α : Type} (choices : List (Nat × Nat)) (validation : Nat) (data : List α) (h : validation ≤ data.length) :
    ∃ v rest, sampleData choices validation data = some v ∧ v.length = validation ∧ (rest ++ v).Perm data := by
  obtain ⟨t, v, h1, h2, h3, _⟩ := C20_split choices validation data [] [] h
  refine ⟨v, t, ?_, h3, h2⟩
  unfold splitData at h1
  unfold sampleData
  rw [if_neg (by omega)] at h1 ⊢
  simp only [List.nil_append, Option.some.injEq, Prod.mk.injEq] at h1
  simp only [h1.2]

example : after 4 [[(0, 3), (1, 2)], [(2, 2), (0, 1)]] = [2, 3, 1, 0] := by decide
example : splitData [(0, 3), (1, 3)] 1 [10, 20, 30, 40] [7] [] = some ([7, 40, 10, 30], [20]) := by decide
example : sampleData [(0, 3)] 2 [10, 20, 30, 40] = some [30, 10] := by decide

end Verif.Shuffler
