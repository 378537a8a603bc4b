import Verif.Model.Columns
import Mathlib.Data.List.Basic
import Mathlib.Data.List.Perm.Basic

/-!
C48: column groups that share a source column are rejected.
C49: re-arranging columns keeps every selected value.
C50: converting text files to a delimited file keeps every token exactly once.
-/
namespace Verif.Columns
open Verif.Parser

/-- The group covers the source column `c`. -/
def Covers (g : ColGroup) (c : Nat) : Prop := g.start ≤ c ∧ c < g.start + g.count

/-- No column is covered twice. -/
def Apart (groups : List ColGroup) : Prop := groups.Pairwise fun a b => ∀ c, ¬ (Covers a c ∧ Covers b c)

/-- A group as the parser can produce it with at least one column. -/
def Sane (g : ColGroup) : Prop := 1 ≤ g.count ∧ g.start + g.count < 2 ^ 64

theorem end_eq (g : ColGroup) (h : Sane g) : (g.start + g.count + (2 ^ 64 - 1)) % 2 ^ 64 = g.start + g.count - 1 := by
  obtain ⟨h1, h2⟩ := h
  generalize g.start = s at *
  generalize g.count = n at *
  have : s + n + (2 ^ 64 - 1) = (s + n - 1) + 2 ^ 64 := by omega
  rw [this, Nat.add_mod_right, Nat.mod_eq_of_lt (by omega)]

/-- C48, as far as it holds: a sorted list of groups is accepted exactly when the only column a group may share with a later
one is its own last column. Missing: the shared last column is not reported, see `C48_violated`. -/
theorem C48_exact_partial (groups sorted : List ColGroup) (hs : SortedFrom groups sorted) (hg : ∀ g ∈ groups, Sane g) :
    hasOverlap sorted = false ↔
      sorted.Pairwise fun a b => ∀ c, Covers a c → Covers b c → c + 1 = a.start + a.count := by
  obtain ⟨hp, hle⟩ := hs
  have hg' : ∀ g ∈ sorted, Sane g := fun g h => hg g (hp.mem_iff.mp h)
  clear hp hg
  induction sorted with
  | nil => simp [hasOverlap]
  | cons a rest ih =>
    cases rest with
    | nil => simp [hasOverlap]
    | cons b rest =>
      have ha := hg' a (by simp)
      have hrest := ih (List.pairwise_cons.mp hle).2 (fun g h => hg' g (by simp [h]))
      rw [hasOverlap, end_eq a ha, List.pairwise_cons]
      have hab : a.start ≤ b.start := (List.pairwise_cons.mp hle).1 b (by simp)
      have hb := hg' b (by simp)
      by_cases hlt : b.start < a.start + a.count - 1
      · rw [if_pos hlt]
        constructor
        · intro h; simp at h
        · rintro ⟨h, -⟩
          have := h b (by simp) b.start ⟨hab, by omega⟩ ⟨Nat.le_refl _, by have := hb.1; omega⟩
          omega
      · rw [if_neg hlt]
        refine hrest.trans ?_
        constructor
        · intro h
          refine ⟨?_, h⟩
          intro x hx c hac hxc
          have hbx : b.start ≤ x.start := by
            rcases List.mem_cons.mp hx with rfl | hx
            · exact Nat.le_refl _
            · exact (List.pairwise_cons.mp (List.pairwise_cons.mp hle).2).1 x hx
          have h1 := hac.2
          have h2 := hxc.1
          have := ha.1
          omega
        · exact fun h => h.2

/-- C48, one direction in full: what is reported as an overlap is one; groups that are apart are always accepted. -/
theorem C48_sound_partial (groups sorted : List ColGroup) (hs : SortedFrom groups sorted) (hg : ∀ g ∈ groups, Sane g)
    (h : Apart groups) : hasOverlap sorted = false := by
  rw [C48_exact_partial groups sorted hs hg]
  have : Apart sorted := (hs.1.pairwise_iff (by intro a b hab c hc; exact hab c hc.symm)).mpr h
  exact this.imp fun hab c ha hb => absurd ⟨ha, hb⟩ (hab c)

/-- A group for the examples. -/
def groupAt (start count : Nat) : ColGroup := ⟨1, "given".toList, "number".toList, "x".toList, 1, count, 1, start, count⟩

example : SortedFrom [groupAt 3 2, groupAt 0 3] [groupAt 0 3, groupAt 3 2] ∧ (∀ g ∈ [groupAt 3 2, groupAt 0 3], Sane g) ∧
    Apart [groupAt 3 2, groupAt 0 3] := by
  refine ⟨⟨List.Perm.swap _ _ _, by simp [groupAt]⟩, ?_, ?_⟩
  · intro g hg; simp only [List.mem_cons, List.not_mem_nil, or_false] at hg
    rcases hg with rfl | rfl <;> simp [Sane, groupAt]
  · simp only [Apart, List.pairwise_cons, List.mem_singleton, forall_eq, List.not_mem_nil, false_imp_iff, implies_true,
      List.Pairwise.nil, and_true, Covers, groupAt]
    intro c; omega

/-- C48 is violated: two groups with the same single column are accepted, so are groups that share an edge column; whether
a shared first column is noticed depends on the order `std::sort` happens to give to equal start indexes; and a group
without columns is reported although it covers nothing. -/
theorem C48_violated :
    (hasOverlap [groupAt 4 1, groupAt 4 1] = false ∧ Covers (groupAt 4 1) 4) ∧
    (hasOverlap [groupAt 0 3, groupAt 2 3] = false ∧ Covers (groupAt 0 3) 2 ∧ Covers (groupAt 2 3) 2) ∧
    (SortedFrom [groupAt 0 1, groupAt 0 3] [groupAt 0 1, groupAt 0 3] ∧
      SortedFrom [groupAt 0 1, groupAt 0 3] [groupAt 0 3, groupAt 0 1] ∧
      hasOverlap [groupAt 0 1, groupAt 0 3] = false ∧ hasOverlap [groupAt 0 3, groupAt 0 1] = true) ∧
    (hasOverlap [groupAt 0 0, groupAt 1 1] = true ∧ Apart [groupAt 0 0, groupAt 1 1]) := by
  refine ⟨⟨by decide +kernel, by simp [Covers, groupAt]⟩, ⟨by decide +kernel, by simp [Covers, groupAt]⟩,
    ⟨⟨List.Perm.refl _, by simp [groupAt]⟩, ⟨List.Perm.swap _ _ _, by simp [groupAt]⟩, by decide +kernel, by decide +kernel⟩,
    by decide +kernel, ?_⟩
  simp only [Apart, List.pairwise_cons, List.mem_singleton, forall_eq, List.not_mem_nil, false_imp_iff, implies_true,
      List.Pairwise.nil, and_true, Covers, groupAt]
  intro c; omega

variable {C : Type}

/-- The source columns of a group, as the user understands them. -/
def columnsOf (record : List C) (start count : Nat) : List C := (record.drop start).take count

theorem slice_eq (record : List C) (g : ColGroup) (h : g.start + g.count ≤ record.length) :
    slice record g = some (columnsOf record g.start g.count) := by
  unfold slice columnsOf
  generalize g.start = s at *
  generalize g.count = n at *
  clear g
  induction n with
  | zero => simp
  | succ n ih =>
    have hlt : s + n < record.length := by omega
    rw [List.range_succ, List.mapM_append, ih (by omega)]
    simp [List.take_add_one, List.getElem?_drop, List.getElem?_eq_getElem hlt]

theorem slices_eq (record : List C) (gs : List ColGroup) (h : ∀ g ∈ gs, g.start + g.count ≤ record.length) :
    gs.mapM (slice record) = some (gs.map fun g => columnsOf record g.start g.count) := by
  induction gs with
  | nil => simp
  | cons g gs ih =>
    rw [List.mapM_cons, slice_eq record g (h g (by simp)), ih (fun g hg => h g (by simp [hg]))]
    rfl

theorem placeFrom_append (i : Nat) (a b : List ColGroup) :
    placeFrom i (a ++ b) = placeFrom i a ++ placeFrom (i + (a.map (·.count)).sum) b := by
  induction a generalizing i with
  | nil => simp [placeFrom]
  | cons g a ih => simp [placeFrom, ih, Nat.add_assoc]

theorem placeFrom_columns (record : List C) (gs : List ColGroup) (h : ∀ g ∈ gs, g.start + g.count ≤ record.length) :
    ∀ (before after : List C),
      (placeFrom before.length gs).map
        (fun g => (columnsOf (before ++ (gs.flatMap fun g => columnsOf record g.start g.count) ++ after) g.start g.count,
          { g with start := 0 })) =
      gs.map fun g => (columnsOf record g.start g.count, { g with start := 0 }) := by
  induction gs with
  | nil => intro before after; rfl
  | cons g gs ih =>
    intro before after
    have hlen : (columnsOf record g.start g.count).length = g.count := by
      have := h g (by simp)
      simp [columnsOf]; omega
    simp only [placeFrom, List.map_cons, List.flatMap_cons]
    congr 1
    · congr 1
      simp only [columnsOf] at hlen ⊢
      rw [List.append_assoc, List.drop_left', List.append_assoc, List.take_left' hlen]
      rfl
    · have := ih (fun g hg => h g (by simp [hg])) (before ++ columnsOf record g.start g.count) after
      rw [List.length_append, hlen] at this
      simpa [List.append_assoc] using this

/-- C49. Every record that is long enough is re-arranged to the columns of the given groups followed by those of the
expected groups; the moved groups find in the new record exactly the values they had in the old one, and nothing but their
start index changed. -/
theorem C49 (groups : List ColGroup) (record : List C) (h : ∀ g ∈ groups, g.start + g.count ≤ record.length) :
    let given := givenGroups groups
    let expected := expectedGroups groups
    ∃ new, newRecord given expected record = some new ∧
      new = (given ++ expected).flatMap (fun g => columnsOf record g.start g.count) ∧
      (updated given expected).map (fun g => (columnsOf new g.start g.count, { g with start := 0 })) =
        (given ++ expected).map (fun g => (columnsOf record g.start g.count, { g with start := 0 })) := by
  intro given expected
  have hg : ∀ g ∈ given, g.start + g.count ≤ record.length := fun g hg => h g (List.mem_of_mem_filter hg)
  have he : ∀ g ∈ expected, g.start + g.count ≤ record.length := fun g hg => h g (List.mem_of_mem_filter hg)
  refine ⟨_, ?_, rfl, ?_⟩
  · unfold newRecord
    rw [slices_eq record given hg, slices_eq record expected he]
    simp [List.flatMap]
  · have := placeFrom_columns record (given ++ expected) (by
      intro g hge
      rcases List.mem_append.mp hge with h | h
      · exact hg g h
      · exact he g h) [] []
    simp only [List.length_nil, List.nil_append, List.append_nil] at this
    rw [placeFrom_append, Nat.zero_add] at this
    exact this

/-- Shorter records are undefined behaviour, never silently changed. -/
theorem C49_short (groups : List ColGroup) (record : List C) (g : ColGroup) (hg : g ∈ groups) (h1 : 1 ≤ g.count)
    (h : record.length < g.start + g.count) : newRecord (givenGroups groups) (expectedGroups groups) record = none := by
  have hs : slice record g = none := by
    unfold slice
    have : ∀ n, record.length < g.start + n → 1 ≤ n →
        (List.range n).mapM (fun i => record[g.start + i]?) = none := by
      intro n hn h1
      obtain ⟨m, rfl⟩ : ∃ m, n = m + 1 := ⟨n - 1, by omega⟩
      rw [List.range_succ, List.mapM_append]
      cases (List.range m).mapM (fun i => record[g.start + i]?) with
      | none => rfl
      | some v => simp [List.getElem?_eq_none (show record.length ≤ g.start + m by omega)]
    exact this g.count h h1
  have key : ∀ gs : List ColGroup, g ∈ gs → gs.mapM (slice record) = none := by
    intro gs
    induction gs with
    | nil => simp
    | cons a gs ih =>
      intro ha
      rw [List.mapM_cons]
      rcases List.mem_cons.mp ha with rfl | ha
      · rw [hs]; rfl
      · rw [ih ha]; cases slice record a <;> rfl
  unfold newRecord
  by_cases hu : g.use = "expected".toList
  · rw [key (expectedGroups groups) (by simp only [expectedGroups, List.mem_filter, decide_eq_true_eq]; exact ⟨hg, hu⟩)]
    cases (givenGroups groups).mapM (slice record) <;> rfl
  · rw [key (givenGroups groups) (by simp only [givenGroups, List.mem_filter, decide_eq_true_eq]; exact ⟨hg, hu⟩)]
    rfl

example : newRecord (givenGroups [{ groupAt 1 1 with use := "expected".toList }, groupAt 2 2])
    (expectedGroups [{ groupAt 1 1 with use := "expected".toList }, groupAt 2 2]) [10, 11, 12, 13] = some [12, 13, 11] := by
  decide +kernel

/-- The words of a text: the longest parts without blanks. -/
def words (cur : List Char) : List Char → List (List Char)
  | [] => if cur = [] then [] else [cur]
  | c :: t => if c = ' ' then (if cur = [] then [] else [cur]) ++ words [] t else words (cur ++ [c]) t

theorem words_append (a b : List Char) : ∀ cur, words cur (a ++ ' ' :: b) = words cur a ++ words [] b := by
  induction a with
  | nil => intro cur; simp [words]
  | cons c a ih =>
    intro cur
    simp only [List.cons_append, words]
    by_cases hc : c = ' '
    · simp only [if_pos hc, ih, List.append_assoc]
    · simp only [if_neg hc, ih]

theorem words_plain (t : List Char) (h : ' ' ∉ t) : ∀ cur, words cur t = if cur ++ t = [] then [] else [cur ++ t] := by
  induction t with
  | nil => intro cur; simp [words]
  | cons c t ih =>
    intro cur
    simp only [List.mem_cons, not_or] at h
    rw [words, if_neg (Ne.symm h.1), ih h.2]
    simp

theorem pieces_words (t : List Char) : ∀ cur, ' ' ∉ cur → (pieces cur t).flatMap (words []) = words cur t := by
  induction t with
  | nil =>
    intro cur h
    unfold pieces words
    split
    · simp
    · rename_i hne
      simp [words_plain cur h, hne]
  | cons c t ih =>
    intro cur h
    unfold pieces words
    by_cases hc : c = ' '
    · rw [if_pos hc, if_pos hc, List.flatMap_cons, ih [] (by simp), words_plain cur h]
      simp
    · rw [if_neg hc, if_neg hc]
      exact ih _ (by simp [h, Ne.symm hc])

theorem cellLoop_words (limit near : Nat) (tokens : List (List Char)) (h : ∀ t ∈ tokens, sentenceEnd t = false) :
    ∀ cell, (cellLoop limit near cell tokens).flatMap (words []) = words [] cell ++ tokens.flatMap (words []) := by
  induction tokens with
  | nil => intro cell; by_cases hc : cell = [] <;> simp [cellLoop, hc, words]
  | cons t tokens ih =>
    intro cell
    have ih' := ih (fun t ht => h t (by simp [ht]))
    unfold cellLoop
    split
    · simp only [h t (by simp), Bool.false_eq_true, and_false, if_false]
      rw [ih', words_append, List.flatMap_cons, List.append_assoc]
    · rw [List.flatMap_cons, ih', List.flatMap_cons]

theorem cellLoop_sublist (limit near : Nat) (tokens : List (List Char)) :
    ∀ cell, (words [] cell ++ tokens.flatMap (words [])).Sublist ((cellLoop limit near cell tokens).flatMap (words [])) := by
  induction tokens with
  | nil => intro cell; by_cases hc : cell = [] <;> simp [cellLoop, hc, words]
  | cons t tokens ih =>
    intro cell
    unfold cellLoop
    split
    · dsimp only
      split
      · rw [List.flatMap_cons, List.flatMap_cons, words_append, List.append_assoc]
        refine List.Sublist.append (List.Sublist.refl _) (List.Sublist.append (List.Sublist.refl _) ?_)
        exact (List.sublist_append_right _ _).trans (ih t)
      · have := ih (cell ++ ' ' :: t)
        rwa [words_append, List.append_assoc] at this
    · rw [List.flatMap_cons, List.flatMap_cons]
      exact List.Sublist.append (List.Sublist.refl _) (ih t)

/-- C50, first part in full: no word is lost, and the order is kept. -/
theorem C50_nothing_lost (limit : Nat) (text : List Char) :
    (words [] text).Sublist ((textCells limit text).flatMap (words [])) := by
  have := cellLoop_sublist limit (limit * 4 / 5) (pieces [] text) []
  rw [pieces_words text [] (by simp)] at this
  simpa [words, textCells] using this

/-- C50 for texts without sentence ends: the cells contain exactly the words of the text, each once and in order. Missing:
texts with sentence ends, see `C50_violated`. -/
theorem C50_partial (limit : Nat) (text : List Char) (h : ∀ t ∈ pieces [] text, sentenceEnd t = false) :
    (textCells limit text).flatMap (words []) = words [] text := by
  unfold textCells
  rw [cellLoop_words limit _ _ h, pieces_words text [] (by simp)]
  simp [words]

example : (∀ t ∈ pieces [] "a bcd  e f".toList, sentenceEnd t = false) ∧
    textCells 5 "a bcd  e f".toList = [" a".toList, "bcd ".toList, "e f".toList] := by decide +kernel

/-- C50 is violated: a sentence end near the limit is written twice. Here with the limit 4000 that `create dataset` uses
and any first word of a length between 3300 and 3900. -/
theorem C50_violated (w : List Char) (hw : ' ' ∉ w) (h1 : 3300 ≤ w.length) (h2 : w.length ≤ 3900) (h3 : sentenceEnd w = false) :
    words [] (w ++ " b. c".toList) = [w, "b.".toList, "c".toList] ∧
    (textCells 4000 (w ++ " b. c".toList)).flatMap (words []) = [w, "b.".toList, "b.".toList, "c".toList] := by
  have hne : w ≠ [] := by rintro rfl; simp at h1
  have e : w ++ " b. c".toList = w ++ ' ' :: "b. c".toList := rfl
  constructor
  · rw [e, words_append, words_plain _ hw]
    simp only [List.nil_append, if_neg hne]
    rfl
  · have hp : pieces [] (w ++ " b. c".toList) = [w, "b.".toList, "c".toList] := by
      have key : ∀ w cur, ' ' ∉ w → pieces cur (w ++ " b. c".toList) = [cur ++ w, "b.".toList, "c".toList] := by
        intro w
        induction w with
        | nil => intro cur _; simp [pieces]
        | cons c w ih =>
          intro cur hc
          simp only [List.mem_cons, not_or] at hc
          rw [List.cons_append, pieces, if_neg (Ne.symm hc.1), ih _ hc.2]
          simp
      simpa using key w [] hw
    have hend : sentenceEnd "b.".toList = true := by decide
    have hendc : sentenceEnd "c".toList = false := by decide
    have hcells : textCells 4000 (w ++ " b. c".toList) = [' ' :: w ++ " b.".toList, "b. c".toList] := by
      unfold textCells
      rw [hp, cellLoop, if_pos (by simp; omega)]
      simp only [h3, Bool.false_eq_true, and_false, if_false]
      rw [cellLoop, if_pos (by simp; omega)]
      simp only [hend, and_true]
      rw [if_pos (by simp; omega)]
      rfl
    rw [hcells]
    have e' : ' ' :: w ++ " b.".toList = [] ++ ' ' :: (w ++ ' ' :: "b.".toList) := rfl
    simp only [List.flatMap_cons, List.flatMap_nil]
    rw [e', words_append, words_append, words_plain _ hw]
    simp only [List.nil_append, if_neg hne]
    rfl

/-- Such a word. -/
example : ' ' ∉ List.replicate 3300 'a' ∧ 3300 ≤ (List.replicate 3300 'a').length ∧ (List.replicate 3300 'a').length ≤ 3900 ∧
    sentenceEnd (List.replicate 3300 'a') = false := by
  unfold sentenceEnd
  rw [List.length_replicate, List.getElem?_replicate, List.getElem?_replicate]
  refine ⟨fun h => ?_, by decide, by decide, by decide⟩
  exact absurd (List.eq_of_mem_replicate h) (by decide)

end Verif.Columns
