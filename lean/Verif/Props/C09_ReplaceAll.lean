import Verif.Model.ReplaceAll
import Mathlib.Data.List.Basic

/-!
C09. `replaceAll s pat rep` substitutes exactly the leftmost non-overlapping occurrences. The specification is the relation `Replaced`: read the
string from the left; where the pattern starts, emit the replacement and continue after the occurrence, otherwise copy one
character. It is deterministic (`Replaced.unique`), so the theorem pins the output completely. Termination is part of the model being a
total function.
-/
namespace Verif.ReplaceAll

variable {α : Type} [DecidableEq α]

/-- Specification: `Replaced pat rep s out`. -/
inductive Replaced (pat rep : List α) : List α → List α → Prop
  | done : Replaced pat rep [] []
  | hit (t out : List α) : Replaced pat rep t out → Replaced pat rep (pat ++ t) (rep ++ out)
  | copy (c : α) (s out : List α) : ¬ pat <+: c :: s → Replaced pat rep s out → Replaced pat rep (c :: s) (c :: out)

/-- The specification determines the output. -/
theorem Replaced.unique {pat rep : List α} (hp : pat ≠ []) {s o₁ : List α} (h₁ : Replaced pat rep s o₁) :
    ∀ {o₂}, Replaced pat rep s o₂ → o₁ = o₂ := by
  induction h₁ with
  | done =>
    intro o₂ h₂
    generalize hs : ([] : List α) = s at h₂
    cases h₂ with
    | done => rfl
    | hit t out _ => simp at hs; exact absurd hs.1 hp
    | copy c s out _ _ => simp at hs
  | hit t out _ ih =>
    intro o₂ h₂
    generalize hs : pat ++ t = s at h₂
    cases h₂ with
    | done => simp at hs; exact absurd hs.1 hp
    | hit t' out' h' => rw [List.append_cancel_left hs] at ih; rw [ih h']
    | copy c s out' hn _ => exact absurd ⟨t, hs⟩ hn
  | copy c s out hn _ ih =>
    intro o₂ h₂
    generalize hs : c :: s = s' at h₂
    cases h₂ with
    | done => simp at hs
    | hit t' out' h' => exact absurd ⟨t', hs.symm⟩ hn
    | copy c' s' out' hn' h' =>
      simp only [List.cons.injEq] at hs
      obtain ⟨rfl, rfl⟩ := hs
      rw [ih h']

theorem find_some {pat : List α} (l : List α) (k : Nat) (h : find pat l = some k) :
    ∃ t, l = l.take k ++ (pat ++ t) ∧ ∀ j, j < k → ¬ pat <+: l.drop j := by
  induction l generalizing k with
  | nil =>
    simp only [find] at h
    split at h
    · rename_i hp
      simp only [Option.some.injEq] at h
      subst h
      exact ⟨[], by simp [hp], by omega⟩
    · simp at h
  | cons c cs ih =>
    simp only [find] at h
    split at h
    · rename_i hp
      simp only [Option.some.injEq] at h
      subst h
      obtain ⟨t, ht⟩ := List.isPrefixOf_iff_prefix.mp hp
      exact ⟨t, by simp [ht], by omega⟩
    · rename_i hp
      cases hf : find pat cs with
      | none => rw [hf] at h; simp at h
      | some k' =>
        rw [hf] at h
        simp only [Option.map_some, Option.some.injEq] at h
        subst h
        obtain ⟨t, h1, h2⟩ := ih k' hf
        refine ⟨t, ?_, ?_⟩
        · simp only [List.take_succ_cons, List.cons_append, List.cons.injEq, true_and]
          exact h1
        · intro j hj
          cases j with
          | zero => simpa [List.isPrefixOf_iff_prefix] using hp
          | succ j => simp only [List.drop_succ_cons]; exact h2 j (by omega)

theorem find_none {pat : List α} (l : List α) (h : find pat l = none) : ∀ j, ¬ pat <+: l.drop j := by
  induction l with
  | nil =>
    simp only [find] at h
    split at h
    · simp at h
    · rename_i hp; intro j; simpa using hp
  | cons c cs ih =>
    simp only [find] at h
    split at h
    · simp at h
    · rename_i hp
      intro j
      cases j with
      | zero => simpa [List.isPrefixOf_iff_prefix] using hp
      | succ j =>
        simp only [List.drop_succ_cons]
        exact ih (by simpa using h) j

theorem replaced_copy {pat rep : List α} (k : Nat) : ∀ (l out : List α), k ≤ l.length →
    (∀ j, j < k → ¬ pat <+: l.drop j) → Replaced pat rep (l.drop k) out → Replaced pat rep l (l.take k ++ out) := by
  induction k with
  | zero => intro l out _ _ h; simpa using h
  | succ k ih =>
    intro l out hk hj h
    cases l with
    | nil => simp at hk
    | cons c cs =>
      simp only [List.take_succ_cons, List.cons_append]
      refine .copy c cs _ (by simpa using hj 0 (by omega)) ?_
      refine ih cs out (by simpa using hk) ?_ (by simpa using h)
      intro j hjk
      simpa using hj (j + 1) (by omega)

theorem loop_spec (s pat rep : List α) (hp : 0 < pat.length) (n : Nat) : ∀ (start : Nat) (result : List α),
    s.length - start ≤ n → ∃ out, loop s pat rep hp start result = result ++ out ∧ Replaced pat rep (s.drop start) out := by
  induction n with
  | zero =>
    intro start result hn
    rw [loop, if_neg (by omega)]
    exact ⟨[], by simp, by rw [List.drop_of_length_le (by omega)]; exact .done⟩
  | succ n ih =>
    intro start result hn
    rw [loop]
    by_cases hlt : start < s.length
    · rw [if_pos hlt]
      cases hf : find pat (s.drop start) with
      | none =>
        refine ⟨s.drop start, rfl, ?_⟩
        have h1 := replaced_copy (pat := pat) (rep := rep) (s.drop start).length (s.drop start) [] (Nat.le_refl _)
          (fun j _ => find_none _ hf j) (by rw [List.drop_length]; exact .done)
        rw [List.take_length, List.append_nil] at h1
        exact h1
      | some k =>
        obtain ⟨t, h1, h2⟩ := find_some _ k hf
        obtain ⟨out, h3, h4⟩ := ih (start + k + pat.length) (result ++ (s.drop start).take k ++ rep) (by omega)
        refine ⟨(s.drop start).take k ++ (rep ++ out), ?_, ?_⟩
        · show loop s pat rep hp _ _ = _
          rw [h3]; simp only [List.append_assoc]
        · have hk : k ≤ (s.drop start).length := by
            by_contra hc
            have h5 := congrArg List.length h1
            rw [List.length_append, List.length_append, List.take_of_length_le (by omega)] at h5
            omega
          apply replaced_copy k _ _ hk h2
          have hd : (s.drop start).drop k = pat ++ t := by
            conv_lhs => rw [h1]
            rw [List.drop_append_of_le_length (by rw [List.length_take]; omega)]
            rw [List.drop_of_length_le (by rw [List.length_take]; omega)]
            simp
          rw [hd]
          refine .hit t out ?_
          have : s.drop (start + k + pat.length) = t := by
            rw [← List.drop_drop, ← List.drop_drop, hd]; simp
          rw [this] at h4
          exact h4
    · rw [if_neg hlt]
      exact ⟨[], by simp, by rw [List.drop_of_length_le (by omega)]; exact .done⟩

/-- The output is exactly the leftmost non-overlapping replacement. -/
theorem C09_replaced (s pat rep : List α) (hp : pat ≠ []) : Replaced pat rep s (replaceAll s pat rep) := by
  have hp' : 0 < pat.length := List.length_pos_iff.mpr hp
  unfold replaceAll
  rw [dif_pos hp']
  obtain ⟨out, h1, h2⟩ := loop_spec s pat rep hp' _ 0 [] (Nat.le_refl _)
  rw [h1]
  simpa using h2

/-- ... and it is the only such output. -/
theorem C09_unique (s pat rep out : List α) (hp : pat ≠ []) (h : Replaced pat rep s out) : replaceAll s pat rep = out :=
  (C09_replaced s pat rep hp).unique hp h

/-- An empty pattern changes nothing. -/
theorem C09_empty_pattern (s rep : List α) : replaceAll s [] rep = s := by
  simp [replaceAll]

/-- A string in which the pattern does not occur is returned unchanged. -/
theorem C09_absent (s pat rep : List α) (hp : pat ≠ []) (h : ¬ pat <:+: s) : replaceAll s pat rep = s := by
  apply C09_unique s pat rep s hp
  have h1 := replaced_copy (pat := pat) (rep := rep) s.length s [] (Nat.le_refl _) (fun j _ hpre => h ?_)
    (by rw [List.drop_length]; exact .done)
  · simpa using h1
  · exact hpre.isInfix.trans (List.drop_suffix j s).isInfix

example : replaceAll [1, 1, 1, 2, 1, 1] [1, 1] [1, 1, 9] = [1, 1, 9, 1, 2, 1, 1, 9] :=
  C09_unique _ _ _ _ (by decide) (.hit [1, 2, 1, 1] [1, 2, 1, 1, 9] (.copy _ _ _ (by decide) (.copy _ _ _ (by decide) (.hit [] [] .done))))

end Verif.ReplaceAll
