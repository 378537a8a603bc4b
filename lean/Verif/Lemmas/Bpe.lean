import Verif.Model.Bpe
import Verif.Props.C09_ReplaceAll

namespace Verif.Bpe
open Verif.ReplaceAll

theorem narrow_widen (c : BitVec 8) : narrow (widen c) = c := by
  unfold narrow widen
  apply BitVec.eq_of_getLsbD_eq
  intro i hi
  simp [BitVec.getLsbD_signExtend, hi]
  omega

/-- Replacing a fresh code back by its pattern undoes the replacement of the pattern. -/
theorem replaced_inverse {α : Type} [DecidableEq α] {pat s out : List α} {c : α} (h : Replaced pat [c] s out) :
    c ∉ s → Replaced [c] pat out s := by
  induction h with
  | done => intro _; exact .done
  | hit t out _ ih =>
    intro hc
    exact .hit out t (ih (fun h => hc (List.mem_append_right _ h)))
  | copy x s out _ _ ih =>
    intro hc
    refine .copy x out s ?_ (ih (fun h => hc (List.mem_cons_of_mem _ h)))
    rintro ⟨t, ht⟩
    simp only [List.singleton_append, List.cons.injEq] at ht
    exact hc (by rw [ht.1]; exact List.mem_cons_self)

theorem replaceAll_inverse (s pat : Str16) (c : BitVec 16) (hc : c ∉ s) :
    replaceAll (replaceAll s pat [c]) [c] pat = s := by
  by_cases hp : pat = []
  · subst hp
    rw [C09_empty_pattern]
    apply C09_absent _ _ _ (by simp)
    rintro ⟨l, r, h⟩
    exact hc (by rw [← h]; simp)
  · exact C09_unique _ _ _ _ (by simp) (replaced_inverse (C09_replaced s pat [c] hp) hc)

theorem replaced_mem {α : Type} [DecidableEq α] {pat rep s out : List α} (h : Replaced pat rep s out) :
    ∀ x ∈ out, x ∈ s ∨ x ∈ rep := by
  induction h with
  | done => simp
  | hit t out _ ih =>
    intro x hx
    rcases List.mem_append.mp hx with hx | hx
    · exact Or.inr hx
    · rcases ih x hx with h | h
      · exact Or.inl (List.mem_append_right _ h)
      · exact Or.inr h
  | copy c s out _ _ ih =>
    intro x hx
    rcases List.mem_cons.mp hx with hx | hx
    · left; rw [hx]; exact List.mem_cons_self
    · rcases ih x hx with h | h
      · exact Or.inl (List.mem_cons_of_mem _ h)
      · exact Or.inr h

theorem mem_replaceAll (s pat rep : Str16) : ∀ x ∈ replaceAll s pat rep, x ∈ s ∨ x ∈ rep := by
  by_cases hp : pat = []
  · subst hp; rw [C09_empty_pattern]; intro x hx; exact Or.inl hx
  · exact replaced_mem (C09_replaced s pat rep hp)

theorem replaced_length {α : Type} [DecidableEq α] {pat rep s out : List α} (h : Replaced pat rep s out)
    (hl : rep.length ≤ pat.length) : out.length ≤ s.length := by
  induction h with
  | done => simp
  | hit t out _ ih => simp only [List.length_append]; omega
  | copy c s out _ _ ih => simp only [List.length_cons]; omega

theorem length_replaceAll (s pat rep : Str16) (hl : rep.length ≤ pat.length) :
    (replaceAll s pat rep).length ≤ s.length := by
  by_cases hp : pat = []
  · subst hp; rw [C09_empty_pattern]
  · exact replaced_length (C09_replaced s pat rep hp) hl

/-- The codes of a table are single characters, pairwise different. -/
def Fresh (table : List (Str16 × Str16)) (bad : BitVec 16 → Prop) : Prop :=
  (∀ e ∈ table, ∃ k, e.2 = [k] ∧ ¬ bad k) ∧ (table.map Prod.snd).Nodup

theorem codec (l : List (Str16 × Str16)) : ∀ (s : Str16), Fresh l (· ∈ s) →
    l.reverse.foldl (fun s e => replaceAll s e.2 e.1) (l.foldl (fun s e => replaceAll s e.1 e.2) s) = s := by
  induction l with
  | nil => intro s _; rfl
  | cons e l ih =>
    intro s hf
    obtain ⟨h1, h2⟩ := hf
    simp only [List.map_cons, List.nodup_cons] at h2
    obtain ⟨k, hk, hks⟩ := h1 e List.mem_cons_self
    simp only [List.foldl_cons, List.reverse_cons, List.foldl_append, List.foldl_nil]
    have hf' : Fresh l (· ∈ replaceAll s e.1 e.2) := by
      refine ⟨?_, h2.2⟩
      intro e' he'
      obtain ⟨k', hk', hks'⟩ := h1 e' (List.mem_cons_of_mem _ he')
      refine ⟨k', hk', ?_⟩
      intro hm
      rcases mem_replaceAll _ _ _ _ hm with hm | hm
      · exact hks' hm
      · rw [hk, List.mem_singleton] at hm
        subst hm
        exact h2.1 (List.mem_map.mpr ⟨e', he', by rw [hk', hk]⟩)
    rw [ih _ hf', hk]
    exact replaceAll_inverse s e.1 k hks

end Verif.Bpe
