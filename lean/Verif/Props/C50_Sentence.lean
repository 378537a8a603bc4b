import Verif.Model.Columns

/-!
# C50: what counts as the end of a sentence
-/
namespace Verif.Columns

/-- The words excluded from `C50_partial` are exactly those of at least two characters with a point as the last or the last but one of them. -/
theorem C50_sentence (token : List Char) : sentenceEnd token = true ↔ (∃ w, w ≠ [] ∧ token = w ++ ['.']) ∨ ∃ w c, token = w ++ ['.', c] := by
  obtain h | ⟨w, c, rfl⟩ := List.eq_nil_or_concat token
  · subst h; simp [sentenceEnd]
  obtain h | ⟨v, d, rfl⟩ := List.eq_nil_or_concat w
  · subst h
    simp only [sentenceEnd, List.concat_eq_append, List.nil_append, List.length_cons, List.length_nil, Nat.zero_add, Nat.lt_irrefl, decide_false, Bool.false_and,
      Bool.false_eq_true, false_iff, not_or, not_exists, not_and]
    refine ⟨fun x hx h => hx ?_, fun x d h => ?_⟩
    · have := congrArg List.length h; simp at this; exact this
    · have := congrArg List.length h; simp at this
  have e : v ++ [d] ++ [c] = v ++ [d, c] := by simp
  have h1 : (v ++ [d, c])[v.length + 1]? = some c := by simp
  have h2 : (v ++ [d, c])[v.length]? = some d := by simp
  simp only [List.concat_eq_append, e]
  constructor
  · intro h
    simp only [sentenceEnd, List.length_append, List.length_cons, List.length_nil, Bool.and_eq_true, Bool.or_eq_true, decide_eq_true_eq] at h
    rw [show v.length + (0 + 1 + 1) - 1 = v.length + 1 by omega, show v.length + (0 + 1 + 1) - 2 = v.length by omega, h1, h2] at h
    rcases h.2 with h | h
    · refine Or.inl ⟨v ++ [d], by simp, ?_⟩; simp at h; simp [h]
    · refine Or.inr ⟨v, c, ?_⟩; simp at h; simp [h]
  · intro h
    simp only [sentenceEnd, List.length_append, List.length_cons, List.length_nil, Bool.and_eq_true, Bool.or_eq_true, decide_eq_true_eq]
    rw [show v.length + (0 + 1 + 1) - 1 = v.length + 1 by omega, show v.length + (0 + 1 + 1) - 2 = v.length by omega, h1, h2]
    refine ⟨by omega, ?_⟩
    rcases h with ⟨w, _, h⟩ | ⟨w, c', h⟩
    · left
      have := congrArg List.getLast? h
      simpa using this
    · right
      have := congrArg List.reverse h
      simp at this
      rw [this.2.1]

example : sentenceEnd "e.g".toList = true ∧ sentenceEnd "a.".toList = true ∧ sentenceEnd ".".toList = false ∧ sentenceEnd "a.bc".toList = false := by decide +kernel

end Verif.Columns
