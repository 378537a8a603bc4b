import Verif.Model.OneHot
import Mathlib.Data.List.Forall2

/-!
C22: one-hot encoding. Every row has its single 1 at the position of its token, unknown tokens give a row of zeros, and no write is out of bounds — for byte-pair codes
other than the largest one (`C22_bpe_partial`), for characters below 128 (`C22_characters_partial`) and for vocabularies numbered inside 0..size-1
(`C22_words`). The excluded cases write out of bounds: `C22_bpe_largest_violated`, `C22_characters_violated`.

C23: padding or truncating gives exactly the requested number of tokens, keeps the prefix and pads with zero tokens (`C23_length`, `C23_spec`).
-/
namespace Verif.OneHot

/-- Specification: row `v` of the given size has 1 at position `i` and 0 elsewhere. -/
def IsOneHot (v : List Nat) (size i : Nat) : Prop := v.length = size ∧ i < size ∧ ∀ j, j < size → v[j]? = some (if j = i then 1 else 0)

/-- Specification: row `v` is all zero. -/
def IsZero (v : List Nat) (size : Nat) : Prop := v.length = size ∧ ∀ j, j < size → v[j]? = some 0

theorem mark_spec (size i : Nat) (h : i < size) : ∃ v, mark (zeros size) i = some v ∧ IsOneHot v size i := by
  refine ⟨(zeros size).set i 1, by simp [mark, zeros, h], by simp [zeros], h, ?_⟩
  intro j hj
  rw [List.getElem?_set]
  by_cases e : j = i
  · subst e; simp [zeros, hj]
  · simp [zeros, hj, e, Ne.symm e]

theorem zeros_spec (size : Nat) : IsZero (zeros size) size := by
  refine ⟨by simp [zeros], ?_⟩
  intro j hj
  simp [zeros, hj]

theorem mapM_spec {A : Type} {f : A → Option (List Nat)} {P : A → List Nat → Prop} (l : List A) (h : ∀ a ∈ l, ∃ v, f a = some v ∧ P a v) :
    ∃ vs, l.mapM f = some vs ∧ List.Forall₂ P l vs := by
  induction l with
  | nil => exact ⟨[], rfl, .nil⟩
  | cons a l ih =>
    obtain ⟨v, h1, h2⟩ := h a List.mem_cons_self
    obtain ⟨vs, h3, h4⟩ := ih (fun a ha => h a (List.mem_cons_of_mem _ ha))
    exact ⟨v :: vs, by rw [List.mapM_cons, h1, h3]; rfl, .cons h2 h4⟩

theorem mapM_none {A B : Type} {f : A → Option B} (l : List A) (a : A) (ha : a ∈ l) (h : f a = none) : l.mapM f = none := by
  induction l with
  | nil => simp at ha
  | cons b l ih =>
    rw [List.mapM_cons]
    rw [List.mem_cons] at ha
    rcases ha with rfl | ha
    · rw [h]; rfl
    · rw [ih ha]
      cases f b <;> rfl

/-- Byte-pair codes: one row per code, marked at the code if it is below the largest, zero if it is above. (Missing: the code equal to the largest.) -/
theorem C22_bpe_partial (tokens : List (List (BitVec 16))) (largest : Nat) (h : ∀ t ∈ tokens, ∀ c ∈ t, c.toNat ≠ largest) :
    ∃ rows, bpe tokens largest = some rows ∧
      List.Forall₂ (fun c v => if c.toNat < largest then IsOneHot v largest c.toNat else IsZero v largest) tokens.flatten rows := by
  apply mapM_spec
  intro c hc
  obtain ⟨t, ht, hct⟩ := List.mem_flatten.mp hc
  have hne := h t ht c hct
  unfold bpeRow
  by_cases hle : c.toNat ≤ largest
  · rw [if_pos hle]
    obtain ⟨v, h1, h2⟩ := mark_spec largest c.toNat (by omega)
    exact ⟨v, h1, by rw [if_pos (by omega)]; exact h2⟩
  · rw [if_neg hle]
    exact ⟨_, rfl, by rw [if_neg (by omega)]; exact zeros_spec largest⟩

/-- The largest code itself is written one past the end of its row. -/
theorem C22_bpe_largest_violated (tokens : List (List (BitVec 16))) (c : BitVec 16) (t : List (BitVec 16)) (ht : t ∈ tokens) (hc : c ∈ t) :
    bpe tokens c.toNat = none := by
  apply mapM_none _ c (List.mem_flatten.mpr ⟨t, ht, hc⟩)
  simp [bpeRow, mark, zeros]

/-- Characters below 128: one row per character, marked at the character. -/
theorem C22_characters_partial (tokens : List (List (BitVec 8))) (h : ∀ t ∈ tokens, ∀ c ∈ t, c.toNat < 128) :
    ∃ rows, characters tokens = some rows ∧ List.Forall₂ (fun c v => IsOneHot v 255 c.toNat) tokens.flatten rows := by
  apply mapM_spec
  intro c hc
  obtain ⟨t, ht, hct⟩ := List.mem_flatten.mp hc
  have hlt := h t ht c hct
  have e : (c.toInt % 2 ^ 64).toNat = c.toNat := by
    have : c.toInt = c.toNat := BitVec.toInt_eq_toNat_of_lt (by omega)
    rw [this]; omega
  unfold charRow
  rw [e]
  exact mark_spec 255 c.toNat (by omega)

/-- Any character of 128 or above is an out-of-bounds write. -/
theorem C22_characters_violated (tokens : List (List (BitVec 8))) (c : BitVec 8) (t : List (BitVec 8)) (ht : t ∈ tokens) (hc : c ∈ t)
    (h : 128 ≤ c.toNat) : characters tokens = none := by
  apply mapM_none _ c (List.mem_flatten.mpr ⟨t, ht, hc⟩)
  have e : c.toInt = (c.toNat : Int) - 256 := by
    rw [BitVec.toInt_eq_toNat_cond, if_neg (by omega)]; rfl
  have hlt := c.isLt
  simp only [charRow, mark, zeros, List.length_replicate]
  rw [if_neg]
  rw [e]; omega

/-- Words: known words are marked at their number, unknown words give a row of zeros, for vocabularies whose numbers lie in 0..size-1 as documented. -/
theorem C22_words {W : Type} [DecidableEq W] (tokens : List W) (vocab : List (W × Int)) (hlen : vocab.length < 2 ^ 31)
    (h : ∀ e ∈ vocab, 0 ≤ e.2 ∧ e.2 < vocab.length) :
    ∃ rows, words tokens vocab = some rows ∧
      List.Forall₂ (fun w v => match vocab.lookup w with
        | some i => IsOneHot v vocab.length i.toNat
        | none => IsZero v vocab.length) tokens rows := by
  apply mapM_spec
  intro w _
  unfold wordRow
  cases hl : vocab.lookup w with
  | none => exact ⟨_, rfl, zeros_spec _⟩
  | some i =>
    have hm : ∃ e ∈ vocab, e.2 = i := by
      clear hlen h
      induction vocab with
      | nil => simp at hl
      | cons e es ih =>
        rw [List.lookup_cons] at hl
        split at hl
        · simp only [Option.some.injEq] at hl; exact ⟨e, List.mem_cons_self, hl⟩
        · obtain ⟨e', he', hi⟩ := ih hl; exact ⟨e', List.mem_cons_of_mem _ he', hi⟩
    obtain ⟨e, he, rfl⟩ := hm
    obtain ⟨h0, h1⟩ := h e he
    have e1 : (e.2 % 2 ^ 64).toNat = e.2.toNat := by omega
    simp only
    rw [e1]
    exact mark_spec vocab.length e.2.toNat (by omega)

theorem foldl_pad {F : Type} (p : List F) (n : Nat) (t : List (List F)) :
    (List.range n).foldl (fun t _ => t ++ [p]) t = t ++ List.replicate n p := by
  induction n with
  | zero => simp
  | succ n ih => rw [List.range_succ, List.foldl_append, ih]; simp [List.replicate_succ']

/-- Exactly the requested number of tokens. -/
theorem C23_length {F : Type} (zero : F) (tokens : List (List F)) (target size : Nat) : (padOrTruncate zero tokens target size).length = target := by
  unfold padOrTruncate
  split
  · rw [List.length_take]; omega
  · split
    · rw [foldl_pad]; simp; omega
    · omega

/-- Position by position: the original token where there is one, a zero token of the requested size elsewhere. -/
theorem C23_spec {F : Type} (zero : F) (tokens : List (List F)) (target size i : Nat) (h : i < target) :
    (padOrTruncate zero tokens target size)[i]? = some (if hi : i < tokens.length then tokens[i] else List.replicate size zero) := by
  unfold padOrTruncate
  split
  · rename_i hl
    rw [List.getElem?_take_of_lt h, dif_pos (by omega), List.getElem?_eq_getElem (by omega)]
  · split
    · rename_i h1 h2
      rw [foldl_pad, List.getElem?_append]
      split
      · rename_i h3; rw [List.getElem?_eq_getElem h3]
      · rename_i h3
        rw [List.getElem?_replicate, if_pos (by omega)]
    · rw [dif_pos (by omega), List.getElem?_eq_getElem (by omega)]

example : bpe [[2, 9], [0]] 4 = some [[0, 0, 1, 0], [0, 0, 0, 0], [1, 0, 0, 0]] := by decide
example : words ["b", "x"] [("a", 0), ("b", 1)] = some [[0, 1], [0, 0]] := by decide
example : padOrTruncate 0 [[1, 2]] 3 2 = [[1, 2], [0, 0], [0, 0]] := by decide

end Verif.OneHot
