import Verif.Model.LabelTask
import Mathlib.Data.List.Perm.Basic
import Mathlib.Data.List.Sort
import Mathlib.Tactic.Linarith
import Mathlib.Tactic.NormNum

/-!
# C66: creating a label task terminates
-/

namespace Verif.LabelTask

/-- The sort keeps its contract. -/
def World.Valid (w : World) : Prop := ∀ l, IsSorted l (w.sort l)

/-- No attempt throws. -/
def World.NoException (w : World) : Prop := ∀ b j, (w.outcome b j).isSome

/-- Attempt `j` on complete data reaches the accuracy `t`. -/
def World.Reaches (w : World) (t : ℚ) (j : Nat) : Prop := ∃ acc loss, w.outcome true j = some (acc, loss) ∧ t ≤ acc

theorem tryPairs_found (w : World) (t : ℚ) (ht : 0 < t) (us : Bool) : ∀ (pairs : List Pair) a acc res a',
    tryPairs w t us pairs a acc = (res, a', true) → us = true ∧ a < a' ∧ w.Reaches t a' := by
  intro pairs
  induction pairs with
  | nil => intro a acc res a' h; simp [tryPairs] at h
  | cons p rest ih =>
    intro a acc res a' h
    unfold tryPairs at h
    dsimp only at h
    split at h
    · rename_i hc
      simp only [Prod.mk.injEq, and_true] at h
      obtain ⟨_, rfl⟩ := h
      simp only [Bool.and_eq_true, decide_eq_true_eq] at hc
      obtain ⟨hu, hacc⟩ := hc
      subst hu
      refine ⟨rfl, by omega, ?_⟩
      unfold attemptTraining at hacc
      split at hacc
      · rename_i x l ho
        exact ⟨x, l, ho, hacc⟩
      · simp only [ge_iff_le] at hacc
        exact absurd hacc (not_le.2 ht)
    · obtain ⟨h1, h2, h3⟩ := ih _ _ _ _ h
      exact ⟨h1, by omega, h3⟩

theorem tryPairs_failed (w : World) (t : ℚ) (us : Bool) : ∀ (pairs : List Pair) a acc res a',
    tryPairs w t us pairs a acc = (res, a', false) →
      a' = a + pairs.length ∧ res.length = acc.length + pairs.length ∧
      (∀ r ∈ res, r ∈ acc ∨ ∃ p ∈ pairs, ∃ j, r = attemptTraining w us j p) ∧
      (us = true → ∀ j, a < j → j ≤ a' → ¬ w.Reaches t j) := by
  intro pairs
  induction pairs with
  | nil =>
    intro a acc res a' h
    simp only [tryPairs, Prod.mk.injEq, and_true] at h
    obtain ⟨rfl, rfl⟩ := h
    refine ⟨by simp, by simp, fun r hr => Or.inl hr, fun _ j h1 h2 => by omega⟩
  | cons p rest ih =>
    intro a acc res a' h
    unfold tryPairs at h
    dsimp only at h
    split at h
    · simp at h
    · rename_i hc
      obtain ⟨h1, h2, h3, h4⟩ := ih _ _ _ _ h
      refine ⟨by rw [h1]; simp; omega, by rw [h2]; simp; omega, ?_, ?_⟩
      · intro r hr
        rcases h3 r hr with h | ⟨q, hq, j, hj⟩
        · rcases List.mem_append.1 h with h | h
          · exact Or.inl h
          · simp only [List.mem_singleton] at h
            exact Or.inr ⟨p, by simp, a + 1, h⟩
        · exact Or.inr ⟨q, by simp [hq], j, hj⟩
      · intro hu j hj1 hj2
        rcases Nat.lt_or_ge (a + 1) j with hlt | hge
        · exact h4 hu j hlt hj2
        · have : j = a + 1 := by omega
          subst this
          rintro ⟨x, l, ho, hx⟩
          apply hc
          subst hu
          simp [attemptTraining, ho, hx]

/-- As long as no attempt throws, a round that does not succeed leaves combinations to try. -/
theorem nextPairs_go (w : World) (hw : w.Valid) (hn : w.NoException) (t : ℚ) (us : Bool) (pairs : List Pair) (a : Nat)
    (res : List Res) (a' : Nat) (hne : pairs ≠ []) (h : tryPairs w t us pairs a [] = (res, a', false)) :
    ∃ ps, ps ≠ [] ∧ nextPairs us 0 (w.sort res) pairs = .go ps := by
  obtain ⟨h1, h2, h3, _⟩ := tryPairs_failed w t us pairs a [] res a' h
  have hs := hw res
  unfold nextPairs
  split
  · rename_i hlen
    refine ⟨_, ?_, rfl⟩
    have hl0 : 0 < (w.sort res).length := by omega
    obtain ⟨r, l, hrl⟩ : ∃ r l, w.sort res = r :: l := by
      cases hsr : w.sort res with
      | nil => rw [hsr] at hl0; simp at hl0
      | cons r l => exact ⟨r, l, rfl⟩
    have hrm : r ∈ res := hs.1.mem_iff.1 (by rw [hrl]; simp)
    rcases h3 r hrm with h | ⟨p, hp, j, hj⟩
    · simp at h
    · obtain ⟨⟨x, y⟩, hxy⟩ := Option.isSome_iff_exists.1 (hn us j)
      have hpm : p ∈ pairs.filter fun p => ((w.sort res).take (if us = true then 1 else max ((w.sort res).length / 4) 2)).any
          fun r => decide (r.complexity = p.complexity) && decide (r.rate = p.rate) := by
        rw [List.mem_filter]
        refine ⟨hp, ?_⟩
        rw [List.any_eq_true]
        refine ⟨r, ?_, ?_⟩
        · rw [hrl]
          obtain ⟨k, hk⟩ : ∃ k, (if us = true then 1 else max ((r :: l).length / 4) 2) = k + 1 := by
            split
            · exact ⟨0, rfl⟩
            · exact ⟨max ((r :: l).length / 4) 2 - 1, by omega⟩
          rw [hk]
          simp
        · rw [hj]
          simp [attemptTraining, hxy]
      intro h0
      rw [h0] at hpm
      simp at hpm
  · split
    · rw [if_pos (by omega)]
      cases pairs with
      | nil => exact absurd rfl hne
      | cons p l => exact ⟨_, by simp [neighbours], rfl⟩
    · exact ⟨pairs, hne, rfl⟩

theorem searchLoop_succ (w : World) (hw : w.Valid) (hn : w.NoException) (t : ℚ) (records fuel : Nat) (pairs : List Pair)
    (size a : Nat) (hne : pairs ≠ []) :
    (∃ k, searchLoop w t records (fuel + 1) pairs size a = some (.saved k) ∧
      ∃ res, tryPairs w t (decide (size + 1 ≥ records)) pairs a [] = (res, k, true)) ∨
    ∃ res a' ps, tryPairs w t (decide (size + 1 ≥ records)) pairs a [] = (res, a', false) ∧ ps ≠ [] ∧
      searchLoop w t records (fuel + 1) pairs size a =
        searchLoop w t records fuel ps (if ps.length > 2 ∧ size < records then size * 2 else records) a' := by
  rcases htry : tryPairs w t (decide (size + 1 ≥ records)) pairs a [] with ⟨res, a', f⟩
  cases f with
  | true =>
    left
    refine ⟨a', ?_, res, rfl⟩
    unfold searchLoop
    simp only [htry]
  | false =>
    right
    obtain ⟨ps, hps, hgo⟩ := nextPairs_go w hw hn t _ pairs a res a' hne htry
    refine ⟨res, a', ps, rfl, hps, ?_⟩
    conv_lhs => unfold searchLoop
    simp only [htry, hgo]

/-- What is saved is good: the search ends only with a network that reached the target accuracy on the complete
data (or not at all, or in undefined behaviour). -/
theorem C66_saved (w : World) (records : Nat) : ∀ fuel pairs k, search w records fuel pairs = some (.saved k) →
    0 < k ∧ w.Reaches targetAccuracy k := by
  have key : ∀ fuel pairs size a k, searchLoop w targetAccuracy records fuel pairs size a = some (.saved k) →
      a < k ∧ w.Reaches targetAccuracy k := by
    intro fuel
    induction fuel with
    | zero => intro pairs size a k h; simp [searchLoop] at h
    | succ fuel ih =>
      intro pairs size a k h
      unfold searchLoop at h
      dsimp only at h
      rcases htry : tryPairs w targetAccuracy (decide (size + 1 ≥ records)) pairs a [] with ⟨res, a', f⟩
      rw [htry] at h
      cases f with
      | true =>
        simp only [Option.some.injEq, Outcome.saved.injEq] at h
        subst h
        exact (tryPairs_found w _ (by norm_num [targetAccuracy]) _ _ _ _ _ _ htry).2
      | false =>
        have ha := (tryPairs_failed w _ _ _ _ _ _ _ htry).1
        simp only at h
        split at h
        · simp at h
        · rename_i hgu
          unfold nextPairs at hgu
          split at hgu
          · simp at hgu
          · split at hgu
            · rw [if_pos (by omega)] at hgu
              split at hgu <;> simp at hgu
            · simp at hgu
        · obtain ⟨h1, h2⟩ := ih _ _ _ _ h
          exact ⟨by omega, h2⟩
  intro fuel pairs k h
  exact key _ _ _ _ _ h

/-- The search ends if from some attempt on every training on the complete data reaches the target. -/
theorem C66_partial (w : World) (hw : w.Valid) (hn : w.NoException) (records : Nat) (pairs : List Pair) (hne : pairs ≠ [])
    (K : Nat) (hK : ∀ j, K ≤ j → w.Reaches targetAccuracy j) :
    ∃ k, search w records (records + K + 1) pairs = some (.saved k) := by
  have key : ∀ fuel (pairs : List Pair) size a, pairs ≠ [] → (1 ≤ size ∨ records ≤ size) → (records - size) + (K - a) < fuel →
      ∃ k, searchLoop w targetAccuracy records fuel pairs size a = some (.saved k) := by
    intro fuel
    induction fuel with
    | zero => intro pairs size a _ _ h; omega
    | succ fuel ih =>
      intro pairs size a hne hsize hm
      rcases searchLoop_succ w hw hn targetAccuracy records fuel pairs size a hne with ⟨k, hk, _⟩ | ⟨res, a', ps, htry, hps, heq⟩
      · exact ⟨k, hk⟩
      · obtain ⟨h1, h2, h3, h4⟩ := tryPairs_failed w _ _ _ _ _ _ _ htry
        have hpl : 0 < pairs.length := List.length_pos_iff.2 hne
        rw [heq]
        obtain ⟨size', hs'⟩ : ∃ s, s = (if ps.length > 2 ∧ size < records then size * 2 else records) := ⟨_, rfl⟩
        rw [← hs']
        by_cases hus : size + 1 ≥ records
        · have hlt : a + 1 < K := by
            by_contra hcon
            exact h4 (by simpa using hus) (a + 1) (by omega) (by omega) (hK _ (by omega))
          refine ih ps size' a' hps ?_ ?_
          · rw [hs']; split <;> omega
          · have : records - size' ≤ records - size := by rw [hs']; split <;> omega
            omega
        · refine ih ps size' a' hps ?_ ?_
          · rw [hs']; split <;> omega
          · have : records - size' < records - size := by rw [hs']; split <;> omega
            omega
  exact key _ pairs 640 0 hne (Or.inl (by omega)) (by omega)

/-- The claim is false: if no attempt ever reaches the target, the search goes on for ever, because the number of
retries starts again in every round. -/
theorem C66_violated (w : World) (hw : w.Valid) (hn : w.NoException) (records : Nat) (pairs : List Pair) (hne : pairs ≠ [])
    (hnever : ∀ j, ¬ w.Reaches targetAccuracy j) : ∀ fuel, search w records fuel pairs = none := by
  have key : ∀ fuel (pairs : List Pair) size a, pairs ≠ [] → searchLoop w targetAccuracy records fuel pairs size a = none := by
    intro fuel
    induction fuel with
    | zero => intro pairs size a _; rfl
    | succ fuel ih =>
      intro pairs size a hne
      rcases searchLoop_succ w hw hn targetAccuracy records fuel pairs size a hne with ⟨k, _, res, hk⟩ | ⟨res, a', ps, htry, hps, heq⟩
      · exact absurd (tryPairs_found w _ (by norm_num [targetAccuracy]) _ _ _ _ _ _ hk).2.2 (hnever k)
      · rw [heq]
        exact ih ps _ a' hps
  intro fuel
  exact key fuel pairs 640 0 hne

/-- If every attempt throws, no combination is left after the first round, and the next one reads the front of an
empty vector. -/
theorem C66_exceptions_violated (w : World) (hw : w.Valid) (hn : ∀ b j, w.outcome b j = none) (records : Nat)
    (pairs : List Pair) (h2 : 2 ≤ pairs.length) (hc : ∀ p ∈ pairs, p.complexity ≠ 0) :
    search w records 2 pairs = some .ub := by
  have ht : (0 : ℚ) < targetAccuracy := by norm_num [targetAccuracy]
  have hno : ∀ j, ¬ w.Reaches targetAccuracy j := by
    rintro j ⟨x, l, ho, _⟩
    rw [hn] at ho
    cases ho
  unfold search searchLoop
  dsimp only
  rcases htry : tryPairs w targetAccuracy (decide (640 + 1 ≥ records)) pairs 0 [] with ⟨res, a', f⟩
  cases f with
  | true => exact absurd (tryPairs_found w _ ht _ _ _ _ _ _ htry).2.2 (hno a')
  | false =>
    obtain ⟨h1, hlen, h3, _⟩ := tryPairs_failed w _ _ _ _ _ _ _ htry
    have hs := hw res
    have hsl : (w.sort res).length = pairs.length := by rw [hs.1.length_eq, hlen]; simp
    have hgo : nextPairs (decide (640 + 1 ≥ records)) 0 (w.sort res) pairs = .go [] := by
      unfold nextPairs
      rw [if_pos (by omega)]
      dsimp only
      congr 1
      rw [List.filter_eq_nil_iff]
      intro p hp hany
      rw [List.any_eq_true] at hany
      obtain ⟨r, hr, hrp⟩ := hany
      have hrm : r ∈ res := hs.1.mem_iff.1 (List.mem_of_mem_take hr)
      rcases h3 r hrm with h | ⟨q, hq, j, hj⟩
      · simp at h
      · rw [hj] at hrp
        simp only [attemptTraining, hn, Bool.and_eq_true, decide_eq_true_eq] at hrp
        exact hc p hp hrp.1.symm
    simp only [hgo]
    unfold searchLoop
    have hsn : w.sort [] = [] := (hw []).1.eq_nil
    simp [tryPairs, nextPairs, hsn]

/-- A round keeps the combinations with the most accurate results: nothing that is dropped was more accurate. -/
theorem C66_kept (w : World) (hw : w.Valid) (us : Bool) (retries : Nat) (res : List Res) (pairs ps : List Pair)
    (h2 : 1 < res.length) (h : nextPairs us retries (w.sort res) pairs = .go ps) :
    ∃ kept dropped, (kept ++ dropped).Perm res ∧ kept ≠ [] ∧
      (∀ p, p ∈ ps ↔ p ∈ pairs ∧ ∃ r ∈ kept, r.complexity = p.complexity ∧ r.rate = p.rate) ∧
      ∀ a ∈ kept, ∀ b ∈ dropped, b.accuracy ≤ a.accuracy := by
  have hs := hw res
  have hlen : 1 < (w.sort res).length := by rw [hs.1.length_eq]; exact h2
  unfold nextPairs at h
  rw [if_pos hlen] at h
  dsimp only at h
  simp only [Next.go.injEq] at h
  obtain ⟨top, htop⟩ : ∃ t, t = (if us = true then 1 else max ((w.sort res).length / 4) 2) := ⟨_, rfl⟩
  rw [← htop] at h
  have htop1 : 1 ≤ top := by rw [htop]; split <;> omega
  refine ⟨(w.sort res).take top, (w.sort res).drop top, by rw [List.take_append_drop]; exact hs.1, ?_, ?_, ?_⟩
  · intro h0
    have := congrArg List.length h0
    rw [List.length_take, List.length_nil] at this
    omega
  · intro p
    rw [← h, List.mem_filter, List.any_eq_true]
    simp only [Bool.and_eq_true, decide_eq_true_eq]
  · intro a ha b hb
    have hp := hs.2
    rw [← List.take_append_drop top (w.sort res), List.pairwise_append] at hp
    have := hp.2.2 a ha b hb
    simp only [before, Bool.or_eq_false_iff, decide_eq_false_iff_not, gt_iff_lt, not_lt] at this
    exact this.1

/-- The combinations that are tried: 30 when speed is asked for, else 192, all of positive complexity and different. -/
theorem C66_combinations : (combos true).length = 30 ∧ (combos false).length = 192 ∧
    (∀ b, ∀ p ∈ combos b, 1 ≤ p.complexity ∧ p.complexity ≤ 12 ∧ 0 ≤ p.rate ∧ p.rate ≤ 15) ∧ ∀ b, (combos b).Nodup := by
  refine ⟨by decide +kernel, by decide +kernel, ?_, ?_⟩ <;> intro b <;> cases b <;> decide +kernel

/-! ## Concrete cases -/

/-- A sort that keeps its contract: insertion by the comparison of the code. -/
def exampleSort (l : List Res) : List Res := l.insertionSort fun a b => before b a = false

theorem before_total (a b : Res) : before b a = false ∨ before a b = false := by
  unfold before
  rcases lt_trichotomy a.accuracy b.accuracy with h | h | h
  · right; simp [not_lt.2 h.le, h.ne]
  · rw [h]
    simp only [gt_iff_lt, lt_irrefl, decide_false, Bool.false_or, decide_true, Bool.true_and]
    cases ha : a.loss <;> cases hb : b.loss <;> simp [lossLess]
    exact le_total _ _
  · left; simp [not_lt.2 h.le, h.ne]

theorem before_trans (a b c : Res) (h1 : before b a = false) (h2 : before c b = false) : before c a = false := by
  simp only [before, Bool.or_eq_false_iff, decide_eq_false_iff_not, gt_iff_lt, not_lt, Bool.and_eq_false_iff] at h1 h2 ⊢
  obtain ⟨h1, h1'⟩ := h1
  obtain ⟨h2, h2'⟩ := h2
  refine ⟨h2.trans h1, ?_⟩
  by_cases hca : c.accuracy = a.accuracy
  · right
    have e1 : b.accuracy = a.accuracy := le_antisymm h1 (by rw [← hca]; exact h2)
    have e2 : c.accuracy = b.accuracy := by rw [hca, e1]
    have l1 := h1'.resolve_left (fun h => h e1)
    have l2 := h2'.resolve_left (fun h => h e2)
    revert l1 l2
    cases a.loss <;> cases b.loss <;> cases c.loss <;> simp [lossLess]
    intro h3 h4
    exact h3.trans h4
  · exact Or.inl hca

theorem exampleSort_sorted (l : List Res) : IsSorted l (exampleSort l) := by
  have : IsTrans Res fun a b => before b a = false := ⟨fun a b c => before_trans a b c⟩
  have : Std.Total fun a b : Res => before b a = false := ⟨fun a b => before_total a b⟩
  exact ⟨List.perm_insertionSort _ _, List.pairwise_insertionSort (fun a b : Res => before b a = false) l⟩

/-- An environment in which no attempt is better than one half: valid, without exceptions, never at the target. -/
example : let w : World := ⟨fun _ _ => some (1 / 2, 1), exampleSort⟩
    w.Valid ∧ w.NoException ∧ (∀ j, ¬ w.Reaches targetAccuracy j) ∧ combos true ≠ [] := by
  refine ⟨exampleSort_sorted, fun _ _ => rfl, ?_, by decide +kernel⟩
  rintro j ⟨x, l, h, hx⟩
  simp only [Option.some.injEq, Prod.mk.injEq] at h
  rw [← h.1] at hx
  norm_num [targetAccuracy] at hx

/-- An environment in which every attempt reaches the target on the complete data; with 1000 records the search ends
in the second round: the first round makes 30 attempts on a part of the data, so attempt 31 is saved. -/
example : let w : World := ⟨fun _ _ => some (95 / 100, 1), exampleSort⟩
    search w 1000 2 (combos true) = some (.saved 31) := by
  decide +kernel

end Verif.LabelTask
