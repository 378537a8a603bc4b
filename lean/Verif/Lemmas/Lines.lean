import Verif.Model.Lines

/-! Facts about reading and writing lines. -/
namespace Verif.Lines

variable {α : Type} [DecidableEq α]

theorem getLines_eq_nil {nl : α} {cs : List α} (h : getLines nl cs = []) : cs = [] := by
  cases cs with
  | nil => rfl
  | cons d ds =>
    rw [getLines] at h
    split at h
    · simp at h
    · split at h <;> simp at h

theorem getLines_flat (nl : α) (content : List α) : ((getLines nl content).map (· ++ [nl])).flatten =
    content ++ (if content = [] ∨ content.getLast? = some nl then [] else [nl]) := by
  induction content with
  | nil => simp [getLines]
  | cons c cs ih =>
    rw [getLines]
    by_cases hc : c = nl
    · subst hc
      rw [if_pos rfl, List.map_cons, List.flatten_cons, ih]
      cases cs with
      | nil => simp
      | cons d ds => simp [List.getLast?_cons_cons]
    · rw [if_neg hc]
      cases hg : getLines nl cs with
      | nil =>
        have := getLines_eq_nil hg
        subst this
        rw [if_neg (by simpa using hc)]; simp
      | cons l ls =>
        rw [hg] at ih
        have hne : cs ≠ [] := by rintro rfl; simp [getLines] at hg
        obtain ⟨d, ds, rfl⟩ := List.exists_cons_of_ne_nil hne
        simp only [List.map_cons, List.flatten_cons, List.cons_append] at ih ⊢
        rw [ih]
        simp [List.getLast?_cons_cons]

theorem getLines_no_newline (nl : α) (content : List α) : ∀ l ∈ getLines nl content, nl ∉ l := by
  induction content with
  | nil => simp [getLines]
  | cons c cs ih =>
    rw [getLines]
    split
    · intro l hl
      rw [List.mem_cons] at hl
      rcases hl with rfl | hl
      · simp
      · exact ih l hl
    · rename_i hc
      split
      · intro l hl; simp at hl; subst hl; simpa using Ne.symm hc
      · rename_i l0 ls hg
        rw [hg] at ih
        intro l hl
        rw [List.mem_cons] at hl
        rcases hl with rfl | hl
        · have := ih l0 List.mem_cons_self
          simp only [List.mem_cons, not_or]
          exact ⟨Ne.symm hc, this⟩
        · exact ih l (List.mem_cons_of_mem _ hl)

theorem getLines_line (nl : α) (l rest : List α) (h : nl ∉ l) : getLines nl (l ++ nl :: rest) = l :: getLines nl rest := by
  induction l with
  | nil => simp [getLines]
  | cons c l ih =>
    simp only [List.mem_cons, not_or] at h
    rw [List.cons_append, getLines, if_neg (Ne.symm h.1), ih h.2]

/-- Lines without newline characters, written out and read back, are unchanged. -/
theorem getLines_putLines (nl : α) (ls : List (List α)) (h : ∀ l ∈ ls, nl ∉ l) : getLines nl (putLines nl ls) = ls := by
  induction ls with
  | nil => rfl
  | cons l ls ih =>
    have e : putLines nl (l :: ls) = l ++ nl :: putLines nl ls := by simp [putLines]
    rw [e, getLines_line nl l _ (h l List.mem_cons_self), ih (fun l hl => h l (List.mem_cons_of_mem _ hl))]

end Verif.Lines
