import Verif.Lemmas.Execute
import Mathlib.Tactic.NormNum
import Mathlib.Tactic.Linarith

/-!
# C119 and C120: executing a task on a dataset and testing it on one

C119: executing a task on a dataset shows, for every row in order, what the task predicts for the values of the row, next to these values.

C120: the accuracy of a task on a test dataset is the fraction of its rows for which the task predicts the labels of the row.
-/

namespace Verif.Execute
open Verif.Encoders (Out Meta)
open Verif.TextCodec (Str)
open Verif.Csv (strip)

variable {F : Type} [Field F] [LinearOrder F]

/-! ### Specification -/

/-- The tensors that stand for the words of a row, one column after another. -/
def Encodes (num : Str → Option F) (pixel : F → F) (ms : List (Meta F)) (words : List (List Str)) (ts : List (Tensor (Option F))) : Prop :=
  words.length = ms.length ∧ List.Forall₂ (fun (mw : Meta F × List Str) t => Encoders.datasetEncode num pixel mw.1 mw.2 = .ok t) (ms.zip words) ts

/-- What a tensor of a column means: the first label with the largest value; the numbers that are stored as these values; a picture with these values. -/
def Means (m : Meta F) (t : Tensor (Option F)) : Cell F → Prop
  | .label l => m.purpose = 'L' ∧ ∃ (i : Nat) (x : F), i < t.cols ∧ m.labels[i]? = some l ∧ t.get 0 i 0 = some x ∧
      (∀ j, j < t.cols → ∃ y, t.get 0 j 0 = some y ∧ y ≤ x) ∧ ∀ j, j < i → t.get 0 j 0 ≠ some x
  | .numbers u => m.purpose ≠ 'L' ∧ m.purpose ≠ 'I' ∧ u.rows = t.rows ∧ u.cols = t.cols ∧ u.chans = t.chans ∧
      ∀ r c k, if m.purpose = 'N' then t.get r c k = (u.get r c k).bind (Statistics.encode m.column) else t.get r c k = u.get r c k
  | .picture u => m.purpose = 'I' ∧ u = t

/-- The words of a column as they are shown: the first label, the numbers, or the picture. -/
def ShowsWords (num : Str → Option F) (pixel : F → F) (m : Meta F) (words : List Str) : Cell F → Prop
  | .label l => m.purpose = 'L' ∧ ∃ w, words[0]? = some w ∧ strip w = l
  | .numbers u => m.purpose = 'N' ∧ u.rows = m.rows ∧ u.cols = m.cols ∧ u.chans = m.chans ∧ ∀ r c k, r < m.rows → c < m.cols → k < m.chans →
      ∃ w x, words[(k * m.rows + r) * m.cols + c]? = some w ∧ Encoders.stringToFloat num (strip w) = some x ∧ u.get r c k = some x
  | .picture u => m.purpose = 'I' ∧ Encoders.datasetEncode num pixel m words = .ok u

/-- A prediction of the size of its column, without infinities and the like. -/
def Fits (m : Meta F) (t : Tensor (Option F)) : Prop :=
  m.purpose = 'L' → 0 < t.cols ∧ t.cols = m.labels.length ∧ ∀ c, c < t.cols → t.get 0 c 0 ≠ none

/-- Columns with the same kind, shape, labels and scale. -/
def SameDescription (a b : Meta F) : Prop :=
  a.purpose = b.purpose ∧ a.rows = b.rows ∧ a.cols = b.cols ∧ a.chans = b.chans ∧ a.labels = b.labels ∧ Alike a.column b.column

/-- What a task with the columns `given` and `expected` is expected to show for a row of words: first what it predicts, then the row. -/
def Answer (num : Str → Option F) (pixel : F → F) (predict : List (Tensor (Option F)) → Out (List (Tensor (Option F)))) (given expected : List (Meta F))
    (words : List (List Str)) (shown : List (Cell F) × List (Cell F)) : Prop :=
  ∃ ts ps, Encodes num pixel given words ts ∧ predict ts = .ok ps ∧
    List.Forall₂ (fun (mt : Meta F × Tensor (Option F)) c => Means mt.1 mt.2 c) (expected.zip ps) shown.1 ∧
    List.Forall₂ (fun (mw : Meta F × List Str) c => ShowsWords num pixel mw.1 mw.2 c) (given.zip words) shown.2

/-! ### Showing -/

theorem finite_plain (t : Tensor F) : finite (Encoders.plain t) = t := rfl

theorem categoryOf_some (labels : List Str) (w : Str) (i : Nat) (h : Encoders.categoryOf labels w = some i) : labels[i]? = some w := by
  unfold Encoders.categoryOf at h
  rw [Option.map_eq_some_iff] at h
  obtain ⟨p, hp, rfl⟩ := h
  have h1 := List.find?_some hp
  have h2 := List.mem_of_find?_eq_some hp
  rw [List.mem_reverse, List.mem_zipIdx_iff_getElem?] at h2
  rw [h2]
  simpa using h1

/-- A stored label is shown as it was. -/
theorem label_shown [IsStrictOrderedRing F] (labels : List Str) (hn : labels.Nodup) (words : List Str) (rows cols chans : Nat) (t : Tensor F)
    (h : Encoders.categoryEncode labels words rows cols chans true = .ok t) :
    ∃ w, words[0]? = some w ∧ Encoders.decodeBest labels t = .ok (strip w) := by
  unfold Encoders.categoryEncode at h
  split at h
  · cases h
  split at h
  · cases h
  split at h
  · cases h
  rename_i _ hw hc
  split at h
  · cases h
  rename_i idx hidx
  split at h
  · cases h
  rename_i hout
  split at h
  · cases h
  rename_i hr
  cases words with
  | nil => simp at hw; omega
  | cons w ws =>
    refine ⟨w, rfl, ?_⟩
    cases h
    simp only [if_true, List.mapM_cons, Option.bind_eq_bind, Option.pure_def, Option.bind_eq_some_iff] at hidx
    obtain ⟨i, hi, is, _, rfl⟩ := by simpa using hidx
    have hl := categoryOf_some _ _ _ hi
    have hi' : i < cols := by
      by_contra hge
      exact hout ⟨i, List.mem_cons_self, by omega⟩
    have hmax : Statistics.maxIndexByRow (F := F) ⟨rows, cols, chans, fun r c _ => if (i :: is)[r]? = some c then 1 else 0⟩ 0 0 = i := by
      unfold Statistics.maxIndexByRow
      dsimp only
      obtain ⟨j, h1, h2, h3, h4⟩ := Statistics.maxIndexLoop_spec (fun c => if (i :: is)[0]? = some c then (1 : F) else 0) cols (by omega)
      rw [h1]
      dsimp only
      by_contra hne
      have h5 := h3 i hi'
      simp only [List.getElem?_cons_zero, if_true] at h5
      rw [if_neg (by simpa using fun e => hne e.symm)] at h5
      exact absurd h5 (by simp)
    unfold Encoders.decodeBest
    rw [hmax, hl]

/-- A prediction is shown as what it means. -/
theorem showCell_means (m : Meta F) (hp : Proper m.column) (t : Tensor (Option F)) (hf : Fits m t) : ∃ c, showCell m t = .ok c ∧ Means m t c := by
  unfold showCell
  by_cases hL : m.purpose = 'L'
  · obtain ⟨h1, h2, h3⟩ := hf hL
    rw [if_pos hL]
    obtain ⟨i, l, e1, e2, e3, e4, e5⟩ := Encoders.C52_prediction m.labels (finite t) h2 h1
    have hb : bestLabel m.labels t = .ok l := by
      unfold bestLabel
      rw [if_neg (by rintro ⟨c, hc, hn⟩; exact h3 c (List.mem_range.1 hc) hn), e3]
    have hget : ∀ j, j < t.cols → t.get 0 j 0 = some ((finite t).get 0 j 0) := by
      intro j hj
      have := h3 j hj
      unfold finite
      cases hg : t.get 0 j 0 with
      | none => exact absurd hg this
      | some v => simp [hg]
    refine ⟨.label l, by rw [hb]; rfl, hL, i, (finite t).get 0 i 0, e1, e2, hget i e1, fun j hj => ⟨_, hget j hj, e4 j hj⟩, ?_⟩
    intro j hj h
    rw [hget j (lt_trans hj e1)] at h
    exact absurd (Option.some.inj h) (ne_of_lt (e5 j hj))
  · rw [if_neg hL]
    by_cases hN : m.purpose = 'N'
    · rw [if_pos hN]
      refine ⟨_, rfl, hL, by rw [hN]; decide, rfl, rfl, rfl, ?_⟩
      intro r c k
      rw [if_pos hN]
      dsimp only
      cases hg : t.get r c k with
      | none => rfl
      | some v => rw [Option.map_some, Option.bind_some, encode_decode _ hp]
    · rw [if_neg hN]
      by_cases hI : m.purpose = 'I'
      · rw [if_pos hI]
        exact ⟨_, rfl, hI, rfl⟩
      · rw [if_neg hI]
        refine ⟨_, rfl, hL, hI, rfl, rfl, rfl, ?_⟩
        intro r c k
        rw [if_neg hN]

/-- The words of a row are shown as they were. -/
theorem showCell_words [IsStrictOrderedRing F] (num : Str → Option F) (pixel : F → F) (m : Meta F) (hp : Proper m.column) (hn : m.labels.Nodup) (words : List Str)
    (t : Tensor (Option F)) (h : Encoders.datasetEncode num pixel m words = .ok t) : ∃ c, showCell m t = .ok c ∧ ShowsWords num pixel m words c := by
  have h' := h
  unfold Encoders.datasetEncode at h
  unfold showCell
  by_cases hI : m.purpose = 'I'
  · rw [if_neg (by rw [hI]; decide), if_neg (by rw [hI]; decide), if_pos hI]
    exact ⟨_, rfl, hI, h'⟩
  rw [if_neg hI] at h
  by_cases hN : m.purpose = 'N'
  · rw [if_pos hN] at h
    rw [if_neg (by rw [hN]; decide), if_pos hN]
    cases hs : Encoders.scalarEncode num words m.rows m.cols m.chans true with
    | throws => rw [hs] at h; cases h
    | undefined => rw [hs] at h; cases h
    | ok u =>
      rw [hs] at h
      cases h
      obtain ⟨s1, s2, s3, s4⟩ := Encoders.C51_layout num words m.rows m.cols m.chans true u hs
      refine ⟨_, rfl, hN, s1, s2, s3, ?_⟩
      intro r c k hr hc hk
      obtain ⟨w, hw, hx⟩ := s4 r c k hr hc hk
      rw [if_pos rfl] at hx
      refine ⟨w, u.get r c k, hw, hx, ?_⟩
      obtain ⟨y, hy1, hy2⟩ := Statistics.C39_round_trip m.column hp.1 hp.2 (u.get r c k)
      simp only [Encoders.scaled, hy1, Option.map_some, hy2]
  rw [if_neg hN] at h
  by_cases hL : m.purpose = 'L'
  · rw [if_pos hL] at h
    rw [if_pos hL]
    cases hs : Encoders.categoryEncode (F := F) m.labels words m.rows m.cols m.chans true with
    | throws => rw [hs] at h; cases h
    | undefined => rw [hs] at h; cases h
    | ok u =>
      rw [hs] at h
      cases h
      obtain ⟨w, hw, hd⟩ := label_shown m.labels hn words m.rows m.cols m.chans u hs
      refine ⟨.label (strip w), ?_, hL, w, hw, rfl⟩
      have : bestLabel m.labels (Encoders.plain u) = .ok (strip w) := by
        unfold bestLabel
        rw [if_neg (by rintro ⟨c, _, hn⟩; cases hn), finite_plain, hd]
      rw [this]
      rfl
  · rw [if_neg hL] at h
    cases h

theorem datasetEncode_same (num : Str → Option F) (pixel : F → F) (a b : Meta F) (h : SameDescription a b) (words : List Str) :
    Encoders.datasetEncode num pixel a words = Encoders.datasetEncode num pixel b words := by
  obtain ⟨h1, h2, h3, h4, h5, h6⟩ := h
  unfold Encoders.datasetEncode
  rw [h1, h2, h3, h4, h5]
  have : Encoders.scaled a.column = Encoders.scaled b.column := by
    funext t
    unfold Encoders.scaled
    simp only [alike_encode h6]
  rw [this]

theorem encodes_same (num : Str → Option F) (pixel : F → F) (as bs : List (Meta F)) (h : List.Forall₂ SameDescription as bs) (words : List (List Str))
    (ts : List (Tensor (Option F))) : Encodes num pixel as words ts ↔ Encodes num pixel bs words ts := by
  unfold Encodes
  rw [h.length_eq]
  refine and_congr_right fun _ => ?_
  clear * - h
  induction h generalizing words ts with
  | nil => rfl
  | cons hab _ ih =>
    cases words with
    | nil => rfl
    | cons w ws =>
      cases ts with
      | nil => simp
      | cons t ts =>
        rw [List.zip_cons_cons, List.zip_cons_cons, List.forall₂_cons, List.forall₂_cons, ih, datasetEncode_same num pixel _ _ hab]

theorem means_same (a b : Meta F) (h : SameDescription a b) (t : Tensor (Option F)) (c : Cell F) (hm : Means a t c) : Means b t c := by
  obtain ⟨h1, _, _, _, h5, h6⟩ := h
  cases c with
  | label l => unfold Means at *; rw [← h1, ← h5]; exact hm
  | picture u => unfold Means at *; rw [← h1]; exact hm
  | numbers u =>
    unfold Means at *
    rw [← h1]
    obtain ⟨g1, g2, g3, g4, g5, g6⟩ := hm
    refine ⟨g1, g2, g3, g4, g5, ?_⟩
    intro r c k
    have := g6 r c k
    split
    · rename_i hN
      rw [if_pos hN] at this
      rw [this]
      cases u.get r c k with
      | none => rfl
      | some v => exact alike_encode h6 v
    · rename_i hN
      rw [if_neg hN] at this
      exact this

theorem showsWords_same (num : Str → Option F) (pixel : F → F) (a b : Meta F) (h : SameDescription a b) (words : List Str) (c : Cell F)
    (hm : ShowsWords num pixel a words c) : ShowsWords num pixel b words c := by
  have he := datasetEncode_same num pixel a b h words
  obtain ⟨h1, h2, h3, h4, _, _⟩ := h
  cases c with
  | label l => unfold ShowsWords at *; rw [← h1]; exact hm
  | picture u => unfold ShowsWords at *; rw [← h1, ← he]; exact hm
  | numbers u => unfold ShowsWords at *; rw [← h1, ← h2, ← h3, ← h4]; exact hm

/-- The words of all columns are shown. -/
theorem showAll_words [IsStrictOrderedRing F] (num : Str → Option F) (pixel : F → F) (ms : List (Meta F)) (hp : ∀ m ∈ ms, Proper m.column ∧ m.labels.Nodup)
    (ws : List (List Str)) (ts : List (Tensor (Option F))) (h : Encodes num pixel ms ws ts) :
    ∃ gs, showAll ms ts = .ok gs ∧ List.Forall₂ (fun (mw : Meta F × List Str) c => ShowsWords num pixel mw.1 mw.2 c) (ms.zip ws) gs := by
  obtain ⟨hl, hf⟩ := h
  induction ms generalizing ws ts with
  | nil => rw [List.zip_nil_left] at hf; cases hf; exact ⟨[], rfl, by rw [List.zip_nil_left]; exact .nil⟩
  | cons m ms ih =>
    cases ws with
    | nil => simp at hl
    | cons w ws =>
      rw [List.zip_cons_cons] at hf
      cases hf with
      | cons h1 h2 =>
        obtain ⟨c, hc, hs⟩ := showCell_words num pixel m (hp m List.mem_cons_self).1 (hp m List.mem_cons_self).2 w _ h1
        obtain ⟨gs, hg1, hg2⟩ := ih (fun m hm => hp m (List.mem_cons_of_mem _ hm)) ws _ (by simpa using hl) h2
        refine ⟨c :: gs, ?_, by rw [List.zip_cons_cons]; exact .cons hs hg2⟩
        unfold showAll andThen
        rw [hc]
        simp only [hg1, Encoders.Out.map]

theorem forall₂_zip {A X C : Type} {R : A → A → Prop} (P : A × X → C → Prop) (hP : ∀ a b x c, R a b → P (a, x) c → P (b, x) c) {as bs : List A}
    (h : List.Forall₂ R as bs) (xs : List X) (cs : List C) (hc : List.Forall₂ P (as.zip xs) cs) : List.Forall₂ P (bs.zip xs) cs := by
  induction h generalizing xs cs with
  | nil => exact hc
  | cons hab _ ih =>
    cases xs with
    | nil => exact hc
    | cons x xs =>
      rw [List.zip_cons_cons] at hc ⊢
      cases hc with
      | cons h1 h2 => exact .cons (hP _ _ _ _ hab h1) (ih _ _ h2)

/-- C119: if the columns of the dataset have the same descriptions as those of the task, and the scales of all given columns agree, then executing the task shows
the answers of the task for all rows, in order. Missing: other descriptions (`C119_range_violated`, `C119_labels_violated`), and given columns of different
scales (`C119_columns_violated`). -/
theorem C119_partial [IsStrictOrderedRing F] (num : Str → Option F) (pixel : F → F) (predict : List (Tensor (Option F)) → Out (List (Tensor (Option F))))
    (given expected : List (Meta F)) (d : Dataset F) (words : List (List (List Str)))
    (hgiven : List.Forall₂ SameDescription d.given given) (hexpected : List.Forall₂ SameDescription d.expected expected)
    (hscale : ∀ m ∈ d.given, ∀ m' ∈ d.given, Alike m.column m'.column)
    (hproper : ∀ m ∈ d.given, Proper m.column ∧ m.labels.Nodup) (hproper' : ∀ m ∈ d.expected, Proper m.column)
    (hrows : List.Forall₂ (fun ws row => Encodes num pixel d.given ws row.1) words d.rows)
    (hpredict : ∀ ws ∈ words, ∀ ts, Encodes num pixel given ws ts → ∃ ps, predict ts = .ok ps ∧ List.Forall₂ Fits d.expected ps) :
    ∃ shown, execute predict d = .ok shown ∧ List.Forall₂ (Answer num pixel predict given expected) words shown := by
  have hlen : ∀ ws ts, Encodes num pixel d.given ws ts → ts.length = d.given.length := by
    intro ws ts h
    rw [← h.2.length_eq, List.length_zip, h.1, Nat.min_self]
  have hopen : ∃ es : List (List (Tensor (Option F))), openWith d d.given d.expected = .ok ((d.rows.map Prod.fst).zip es) ∧ es.length = d.rows.length := by
    refine ⟨d.rows.map fun r => renormAll d.expected d.expected r.2, ?_, by simp⟩
    unfold openWith
    rw [if_neg (by simp)]
    congr 1
    rw [List.zip_map']
    apply List.map_congr_left
    intro r hr
    obtain ⟨i, hi, rfl⟩ := List.getElem_of_mem hr
    have := (List.forall₂_iff_get.1 hrows).2 i (by rw [hrows.length_eq]; exact hi) hi
    simp only [Prod.mk.injEq, and_true]
    exact renormAll_alike _ _ _ (hlen _ _ this) hscale fun m hm => (hproper m hm).1
  obtain ⟨es, ho, hes⟩ := hopen
  have hrow : ∀ ws ts, ws ∈ words → Encodes num pixel d.given ws ts →
      ∃ s, executeRow predict d ts = .ok s ∧ Answer num pixel predict given expected ws s := by
    intro ws ts hws he
    have he' := (encodes_same num pixel _ _ hgiven ws ts).1 he
    obtain ⟨ps, hps, hfit⟩ := hpredict ws hws ts he'
    obtain ⟨cs, hc1, hc2⟩ := showAll_ok Means d.expected ps (by
      rw [List.forall₂_iff_get]
      refine ⟨hfit.length_eq, ?_⟩
      intro i h1 h2
      exact showCell_means _ (hproper' _ (List.getElem_mem _)) _ ((List.forall₂_iff_get.1 hfit).2 i h1 h2))
    obtain ⟨gs, hg1, hg2⟩ := showAll_words num pixel d.given hproper ws ts he
    refine ⟨(cs, gs), ?_, ts, ps, he', hps, ?_, ?_⟩
    · unfold executeRow andThen
      rw [hps]
      simp only [hc1, hg1, Encoders.Out.map]
    · exact forall₂_zip _ (fun a b x c hab h => means_same a b hab x c h) hexpected _ _ hc2
    · exact forall₂_zip _ (fun a b x c hab h => showsWords_same num pixel a b hab x c h) hgiven _ _ hg2
  unfold execute andThen
  rw [ho]
  dsimp only
  have hz : List.Forall₂ (fun ws (r : List (Tensor (Option F)) × List (Tensor (Option F))) => ws ∈ words ∧ Encodes num pixel d.given ws r.1) words
      ((d.rows.map Prod.fst).zip es) := by
    rw [List.forall₂_iff_get]
    have hl := hrows.length_eq
    refine ⟨by simp [hes, hl], ?_⟩
    intro i h1 h2
    have := (List.forall₂_iff_get.1 hrows).2 i h1 (by omega)
    refine ⟨List.getElem_mem _, ?_⟩
    simpa using this
  generalize (d.rows.map Prod.fst).zip es = zs at hz
  clear ho hrows hpredict hes
  suffices h : ∀ (ws' : List (List (List Str))) (zs : List (List (Tensor (Option F)) × List (Tensor (Option F)))), List.Forall₂ (fun ws (r : List (Tensor (Option F)) × List (Tensor (Option F))) => ws ∈ words ∧
      Encodes num pixel d.given ws r.1) ws' zs → ∃ shown, collect (fun r => executeRow predict d r.1) zs = .ok shown ∧
        List.Forall₂ (Answer num pixel predict given expected) ws' shown from h words zs hz
  clear hz zs
  intro ws' zs h
  induction h with
  | nil => exact ⟨[], rfl, .nil⟩
  | cons h1 _ ih =>
    obtain ⟨s, hs, ha⟩ := hrow _ _ h1.1 h1.2
    obtain ⟨ss, hss, has⟩ := ih
    refine ⟨s :: ss, ?_, .cons ha has⟩
    unfold collect andThen
    rw [hs]
    simp only [hss, Encoders.Out.map]

/-! ### C119: violations -/

/-- A single number. -/
def one (x : F) : Tensor (Option F) := ⟨1, 1, 1, fun _ _ _ => some x⟩

/-- A column of single numbers. -/
def number (c : Statistics.Column F) : Meta F := ⟨'N', 1, 1, 1, [], c⟩

/-- A column of single labels. -/
def label (labels : List Str) : Meta F := ⟨'L', 1, labels.length, 1, labels, ⟨false, 0, 0, false, 0, 0⟩⟩

/-- The scale of a column with the values 0 and 1. -/
theorem column_01 [IsStrictOrderedRing F] (sqrt : F → F) (h : sqrt (1 / 4) = 1 / 2) :
    Statistics.normalizeColumn sqrt (-100) 100 [0, 1] = some (⟨false, 1 / 2, 1 / 2, true, 0, 1⟩, [some 0, some 1]) := by
  have e : (([0, 1] : List F).foldl Statistics.Running.add (Statistics.Running.init (-100) 100)) = ⟨1 / 2, 1 / 2, 2, 0, 1⟩ := by
    simp only [List.foldl_cons, List.foldl_nil, Statistics.Running.add, Statistics.Running.init]
    norm_num
  unfold Statistics.normalizeColumn
  rw [e]
  norm_num [Statistics.columnOf, Statistics.Running.variance, h, Statistics.encode, Statistics.normalize, Statistics.fdiv]

/-- The scale of a column with the values 0 and 2. -/
theorem column_02 [IsStrictOrderedRing F] (sqrt : F → F) (h : sqrt 1 = 1) :
    Statistics.normalizeColumn sqrt (-100) 100 [0, 2] = some (⟨false, 1, 1, true, 0, 2⟩, [some 0, some 1]) := by
  have e : (([0, 2] : List F).foldl Statistics.Running.add (Statistics.Running.init (-100) 100)) = ⟨1, 2, 2, 0, 2⟩ := by
    simp only [List.foldl_cons, List.foldl_nil, Statistics.Running.add, Statistics.Running.init]
    norm_num
  unfold Statistics.normalizeColumn
  rw [e]
  norm_num [Statistics.columnOf, Statistics.Running.variance, h, Statistics.encode, Statistics.normalize, Statistics.fdiv]

theorem encode_range (mean sd hi v : F) (h : hi ≠ 0) : Statistics.encode ⟨false, mean, sd, true, 0, hi⟩ v = some (v / hi) := by
  simp [Statistics.encode, Statistics.normalize, Statistics.fdiv, h]

theorem decode_range (mean sd hi v : F) : Statistics.decode ⟨false, mean, sd, true, 0, hi⟩ v = v * hi := by
  simp [Statistics.decode, Statistics.denormalize]

theorem renorm_range (mean sd hi mean' sd' hi' v : F) (h : hi' ≠ 0) :
    renorm ⟨false, mean, sd, true, 0, hi⟩ ⟨false, mean', sd', true, 0, hi'⟩ (one v) = one (v * hi / hi') := by
  unfold renorm one
  simp only [Option.bind_some, decode_range, encode_range _ _ _ _ h]

theorem show_number (c : Statistics.Column F) (t : Tensor (Option F)) :
    showCell (number c) t = .ok (.numbers ⟨t.rows, t.cols, t.chans, fun r c' k => (t.get r c' k).map (Statistics.decode c)⟩) := by
  unfold showCell number
  rw [if_neg (by simp), if_pos rfl]

theorem show_range (mean sd hi v : F) : showCell (number ⟨false, mean, sd, true, 0, hi⟩) (one v) = .ok (.numbers (one (v * hi))) := by
  unfold showCell number one
  simp only [show ('N' : Char) ≠ 'L' by decide, if_false, if_true, Option.map_some, decode_range]

/-- C119 fails for given columns of different scales, even on the dataset that the task was made from: for the rows (0, 0) and (1, 2), stored as 0, 0 and 1, 1, the
network is given 0, 0 and 1, 2, and the second row is shown as (1, 4). -/
theorem C119_columns_violated [IsStrictOrderedRing F] (sqrt : F → F) (h4 : sqrt (1 / 4) = 1 / 2) (h1 : sqrt 1 = 1) (expected : List (Meta F))
    (predict : List (Tensor (Option F)) → Out (List (Tensor (Option F)))) (es es' ps ps' : List (Tensor (Option F))) (e e' : List (Cell F))
    (hp : predict [one 0, one 0] = .ok ps) (he : showAll expected ps = .ok e) (hp' : predict [one 1, one 2] = .ok ps') (he' : showAll expected ps' = .ok e') :
    ∃ a b, Statistics.normalizeColumn sqrt (-100) 100 [0, 1] = some (a, [some 0, some 1]) ∧
      Statistics.normalizeColumn sqrt (-100) 100 [0, 2] = some (b, [some 0, some 1]) ∧
      execute predict ⟨[number a, number b], expected, [([one 0, one 0], es), ([one 1, one 1], es')]⟩ =
        .ok [(e, [.numbers (one 0), .numbers (one 0)]), (e', [.numbers (one 1), .numbers (one 4)])] := by
  refine ⟨_, _, column_01 sqrt h4, column_02 sqrt h1, ?_⟩
  unfold execute openWith
  rw [if_neg (by simp)]
  have r0 : renormAll [number ⟨false, 1 / 2, 1 / 2, true, 0, 1⟩, number ⟨false, 1, 1, true, 0, (2 : F)⟩]
      [number ⟨false, 1 / 2, 1 / 2, true, 0, 1⟩, number ⟨false, 1, 1, true, 0, 2⟩] [one 0, one 0] = [one 0, one 0] := by
    unfold renormAll
    simp only [List.zipWith_cons_cons, List.zipWith_nil_left, number, renorm_range _ _ _ _ _ _ _ one_ne_zero]
    norm_num
  have r1 : renormAll [number ⟨false, 1 / 2, 1 / 2, true, 0, 1⟩, number ⟨false, 1, 1, true, 0, (2 : F)⟩]
      [number ⟨false, 1 / 2, 1 / 2, true, 0, 1⟩, number ⟨false, 1, 1, true, 0, 2⟩] [one 1, one 1] = [one 1, one 2] := by
    unfold renormAll
    simp only [List.zipWith_cons_cons, List.zipWith_nil_left, number, renorm_range _ _ _ _ _ _ _ one_ne_zero]
    norm_num
  simp only [List.map_cons, List.map_nil, r0, r1, andThen, collect, executeRow, hp, he, hp', he', showAll, show_range, Encoders.Out.map]
  norm_num

/-- C119 fails for a column with another range than the one the task was made from. A task that was made from the values 0 and 2 and answers with its input answers
2 to the value 1 of a dataset with the values 0 and 1. -/
theorem C119_range_violated [IsStrictOrderedRing F] (sqrt : F → F) (h4 : sqrt (1 / 4) = 1 / 2) (h1 : sqrt 1 = 1) (num : Str → Option F) (pixel : F → F)
    (w0 w1 : Str) (hw0 : Encoders.stringToFloat num (strip w0) = some 0) (hw1 : Encoders.stringToFloat num (strip w1) = some 1) :
    ∃ a b, Statistics.normalizeColumn sqrt (-100) 100 [0, 2] = some (a, [some 0, some 1]) ∧
      Statistics.normalizeColumn sqrt (-100) 100 [0, 1] = some (b, [some 0, some 1]) ∧
      ∃ rows : List (List (Tensor (Option F)) × List (Tensor (Option F))),
        List.Forall₂ (fun ws row => Encodes num pixel [number b] ws row.1) [[[w0]], [[w1]]] rows ∧
        ∃ c c' u, execute .ok ⟨[number b], [number a], rows⟩ = .ok [c, ([.numbers u], c')] ∧ u.get 0 0 0 = some 2 ∧
          ∀ s, Answer num pixel .ok [number a] [number a] [[w1]] s → ∃ v, s.1 = [.numbers v] ∧ v.get 0 0 0 = some 1 := by
  have henc : ∀ (mean sd hi x : F) (w : Str), hi ≠ 0 → Encoders.stringToFloat num (strip w) = some x →
      ∃ t, Encoders.datasetEncode num pixel (number ⟨false, mean, sd, true, 0, hi⟩) [w] = .ok t ∧ t.rows = 1 ∧ t.cols = 1 ∧ t.chans = 1 ∧
        t.get 0 0 0 = some (x / hi) := by
    intro mean sd hi x w hh hw
    refine ⟨Encoders.scaled ⟨false, mean, sd, true, 0, hi⟩ (Encoders.tensorOf 1 1 1 [x]), ?_, ?_⟩
    · unfold Encoders.datasetEncode number Encoders.scalarEncode Encoders.encodeValues
      simp only [show ('N' : Char) ≠ 'I' by decide, if_false, if_true, Nat.mul_one, Encoders.readValues, hw]
      rw [if_neg (by decide)]
      rfl
    · refine ⟨rfl, rfl, rfl, ?_⟩
      simp [Encoders.scaled, Encoders.tensorOf, encode_range _ _ _ _ hh]
  obtain ⟨t0, e0, s0⟩ := henc (1 / 2) (1 / 2) 1 0 w0 one_ne_zero hw0
  obtain ⟨t1, e1, s1, s2, s3, s4⟩ := henc (1 / 2) (1 / 2) 1 1 w1 one_ne_zero hw1
  refine ⟨_, _, column_02 sqrt h1, column_01 sqrt h4, [([t0], []), ([t1], [])], ?_, ?_⟩
  · exact .cons ⟨rfl, .cons e0 .nil⟩ (.cons ⟨rfl, .cons e1 .nil⟩ .nil)
  have hr : ∀ t : Tensor (Option F), renormAll [number ⟨false, 1 / 2, 1 / 2, true, 0, (1 : F)⟩] [number ⟨false, 1 / 2, 1 / 2, true, 0, 1⟩] [t] = [t] := by
    intro t
    refine renormAll_alike _ _ _ rfl ?_ ?_
    · intro m hm t ht
      rw [List.mem_singleton] at hm ht
      rw [hm, ht]
      exact alike_refl _
    · intro m hm
      rw [List.mem_singleton] at hm
      rw [hm]
      exact ⟨fun _ => zero_ne_one, fun h => by cases h⟩
  refine ⟨([.numbers ⟨t0.rows, t0.cols, t0.chans, fun r c k => (t0.get r c k).map (Statistics.decode ⟨false, 1, 1, true, 0, 2⟩)⟩],
      [.numbers ⟨t0.rows, t0.cols, t0.chans, fun r c k => (t0.get r c k).map (Statistics.decode ⟨false, 1 / 2, 1 / 2, true, 0, 1⟩)⟩]),
      [.numbers ⟨t1.rows, t1.cols, t1.chans, fun r c k => (t1.get r c k).map (Statistics.decode ⟨false, 1 / 2, 1 / 2, true, 0, 1⟩)⟩],
      ⟨t1.rows, t1.cols, t1.chans, fun r c k => (t1.get r c k).map (Statistics.decode ⟨false, 1, 1, true, 0, 2⟩)⟩, ?_, ?_, ?_⟩
  · unfold execute openWith
    rw [if_neg (by simp)]
    simp only [List.map_cons, List.map_nil, hr, andThen, collect, executeRow, showAll, show_number, Encoders.Out.map]
  · simp only [s4, Option.map_some, decode_range]
    norm_num
  · rintro ⟨s, s'⟩ ⟨ts, ps, ⟨_, h2⟩, h3, h5, _⟩
    cases h3
    rw [List.zip_cons_cons, List.zip_nil_left] at h2
    cases h2 with
    | cons g1 g2 =>
      cases g2
      rename_i t
      obtain ⟨t', e', r1, r2, r3, r4⟩ := henc 1 1 2 1 w1 two_ne_zero hw1
      dsimp only at g1
      rw [e'] at g1
      cases g1
      rw [List.zip_cons_cons, List.zip_nil_left] at h5
      rw [List.forall₂_cons_left_iff] at h5
      obtain ⟨c, cs, k1, k2, hs⟩ := h5
      cases k2
      dsimp only at k1 hs
      cases c with
      | label l => exact absurd k1.1 (by simp [number])
      | picture u => exact absurd k1.1 (by simp [number])
      | numbers v =>
        refine ⟨v, hs, ?_⟩
        obtain ⟨_, _, _, _, _, k⟩ := k1
        have := k 0 0 0
        rw [if_pos (show (number (⟨false, 1, 1, true, 0, 2⟩ : Statistics.Column F)).purpose = 'N' from rfl), r4] at this
        cases hv : v.get 0 0 0 with
        | none => rw [hv] at this; cases this
        | some x =>
          rw [hv, Option.bind_some] at this
          unfold number at this
          rw [encode_range _ _ _ _ two_ne_zero] at this
          have := Option.some.inj this
          congr 1
          field_simp at this
          exact this.symm

/-- A tensor that selects one of `n` labels. -/
def oneHot (n i : Nat) : Tensor (Option F) := ⟨1, n, 1, fun r c _ => some (if r = 0 ∧ c = i then 1 else 0)⟩

theorem bestLabel_oneHot [IsStrictOrderedRing F] (labels : List Str) (n i : Nat) (hi : i < n) :
    bestLabel labels (oneHot (F := F) n i) = match labels[i]? with | none => .throws | some l => .ok l := by
  have hmax : Statistics.maxIndexByRow (finite (oneHot (F := F) n i)) 0 0 = i := by
    unfold Statistics.maxIndexByRow finite oneHot
    dsimp only
    obtain ⟨j, h1, h2, h3, h4⟩ := Statistics.maxIndexLoop_spec (fun c => (some (if 0 = 0 ∧ c = i then (1 : F) else 0)).getD 0) n (by omega)
    rw [h1]
    dsimp only
    by_contra hne
    have h5 := h3 i hi
    simp only [Option.getD_some, if_true, true_and] at h5
    rw [if_neg hne] at h5
    exact absurd h5 (by simp)
  unfold bestLabel
  rw [if_neg (by rintro ⟨c, _, h⟩; cases h)]
  unfold Encoders.decodeBest
  rw [hmax]
  cases labels[i]? <;> rfl

/-- How a label is stored. -/
theorem store_label (num : Str → Option F) (pixel : F → F) (labels : List Str) (hn : labels.Nodup) (w : Str) (i : Nat) (hi : labels[i]? = some (strip w)) :
    Encoders.datasetEncode num pixel (label (F := F) labels) [w] = .ok (oneHot labels.length i) := by
  unfold Encoders.datasetEncode label
  simp only [show ('L' : Char) ≠ 'I' by decide, show ('L' : Char) ≠ 'N' by decide, if_false, if_true,
    Encoders.categoryEncode_one (F := F) labels hn w i hi, Encoders.Out.map, Encoders.plain, oneHot]
  congr 2
  funext r k z
  cases r with
  | zero => simp [eq_comm]
  | succ r => simp

/-- C119 fails for a column whose labels are not those that the task was made from. A task that knows the labels `l` and answers `a` (whatever it is given) is never
shown to do so on a dataset in which only the label `b` occurs: `b` is shown, or an exception is thrown. -/
theorem C119_labels_violated [IsStrictOrderedRing F] (l : List Str) (a b : Str) (ha : a ∈ l) (given : List (Meta F)) (ts es : List (Tensor (Option F))) :
    ∃ predict : List (Tensor (Option F)) → Out (List (Tensor (Option F))), (∀ ts, ∃ ps, predict ts = .ok ps ∧ List.Forall₂ Fits [label l] ps ∧
        List.Forall₂ (fun (m : Meta F) t => Means m t (.label a)) [label l] ps) ∧
      ∀ shown, execute predict ⟨given, [label [b]], [(ts, es)]⟩ = .ok shown → ∃ c, shown = [([.label b], c)] := by
  obtain ⟨i, hi, rfl⟩ := List.getElem_of_mem ha
  refine ⟨fun _ => .ok [oneHot l.length i], ?_, ?_⟩
  · intro ts
    refine ⟨_, rfl, .cons ?_ .nil, .cons ?_ .nil⟩
    · intro _
      exact ⟨by show 0 < l.length; omega, rfl, fun c _ h => by cases h⟩
    · refine ⟨rfl, i, 1, hi, List.getElem?_eq_getElem hi, by simp [oneHot], ?_, ?_⟩
      · intro j _
        refine ⟨if 0 = 0 ∧ j = i then 1 else 0, rfl, ?_⟩
        split <;> simp
      · intro j hj
        simp [oneHot, Nat.ne_of_lt hj]
  · intro shown h
    unfold execute openWith at h
    rw [if_neg (by simp)] at h
    simp only [List.map_cons, List.map_nil, andThen, collect, executeRow, showAll] at h
    have hc : showCell (label [b]) (oneHot (F := F) l.length i) = (bestLabel [b] (oneHot (F := F) l.length i)).map .label := by
      unfold showCell label
      rw [if_pos rfl]
    rw [hc, bestLabel_oneHot _ _ _ hi] at h
    cases i with
    | zero =>
      simp only [List.getElem?_cons_zero, Encoders.Out.map] at h
      split at h
      · cases h
        rename_i hx
        split at hx
        · cases hx
          exact ⟨_, rfl⟩
        · cases hx
        · cases hx
      · cases h
      · cases h
    | succ i =>
      simp only [List.getElem?_cons_succ, List.getElem?_nil, Encoders.Out.map] at h
      cases h

/-! ### C120 -/

/-- The task predicts the labels of a row: for every column, the prediction means the label. -/
def RightRow (num : Str → Option F) (pixel : F → F) (predict : List (Tensor (Option F)) → Out (List (Tensor (Option F)))) (given expected : List (Meta F))
    (row : List (List Str) × List Str) : Prop :=
  ∃ ts ps, Encodes num pixel given row.1 ts ∧ predict ts = .ok ps ∧
    List.Forall₂ (fun (mp : Meta F × Tensor (Option F)) w => Means mp.1 mp.2 (.label (strip w))) (expected.zip ps) row.2

theorem encodes_unique (num : Str → Option F) (pixel : F → F) (ms : List (Meta F)) (ws : List (List Str)) (ts us : List (Tensor (Option F)))
    (h : Encodes num pixel ms ws ts) (h' : Encodes num pixel ms ws us) : ts = us := by
  have key : ∀ (l : List (Meta F × List Str)) (ts us : List (Tensor (Option F))),
      List.Forall₂ (fun (mw : Meta F × List Str) t => Encoders.datasetEncode num pixel mw.1 mw.2 = .ok t) l ts →
      List.Forall₂ (fun (mw : Meta F × List Str) t => Encoders.datasetEncode num pixel mw.1 mw.2 = .ok t) l us → ts = us := by
    intro l ts us h
    induction h generalizing us with
    | nil => intro h; cases h; rfl
    | cons a _ ih =>
      intro h
      cases h with
      | cons b hb =>
        rw [a] at b
        cases b
        rw [ih _ hb]
  exact key _ _ _ h.2 h'.2

/-- The meaning of a prediction is what its decoder makes of it. -/
theorem means_label (m : Meta F) (hL : m.purpose = 'L') (t : Tensor (Option F)) (hf : Fits m t) :
    ∃ l, bestLabel m.labels t = .ok l ∧ ∀ l', Means m t (.label l') ↔ l' = l := by
  obtain ⟨h1, h2, h3⟩ := hf hL
  obtain ⟨i, l, e1, e2, e3, e4, e5⟩ := Encoders.C52_prediction m.labels (finite t) h2 h1
  have hb : bestLabel m.labels t = .ok l := by
    unfold bestLabel
    rw [if_neg (by rintro ⟨c, hc, hn⟩; exact h3 c (List.mem_range.1 hc) hn), e3]
  have hget : ∀ j, j < t.cols → t.get 0 j 0 = some ((finite t).get 0 j 0) := by
    intro j hj
    have := h3 j hj
    unfold finite
    cases hg : t.get 0 j 0 with
    | none => exact absurd hg this
    | some v => simp [hg]
  have e1' : i < t.cols := e1
  refine ⟨l, hb, fun l' => ⟨?_, ?_⟩⟩
  · rintro ⟨_, j, x, j1, j2, j3, j4, j5⟩
    have hx : x = (finite t).get 0 j 0 := Option.some.inj (j3.symm.trans (hget j j1))
    have hij : j = i := by
      rcases Nat.lt_trichotomy j i with h | h | h
      · obtain ⟨y, hy1, hy2⟩ := j4 i e1'
        rw [hget i e1'] at hy1
        have := e5 j h
        rw [← hx, Option.some.inj hy1] at this
        exact absurd hy2 (not_le.2 this)
      · exact h
      · obtain ⟨y, hy1, hy2⟩ := j4 i e1'
        have hle := e4 j j1
        rw [hget i e1'] at hy1
        rw [← hx, Option.some.inj hy1] at hle
        exact absurd ((hget i e1').trans (by rw [Option.some.inj hy1, le_antisymm hy2 hle])) (j5 i h)
    subst hij
    rw [e2] at j2
    exact (Option.some.inj j2).symm
  · rintro rfl
    refine ⟨hL, i, (finite t).get 0 i 0, e1, e2, hget i e1, fun j hj => ⟨_, hget j hj, e4 j hj⟩, ?_⟩
    intro j hj h
    rw [hget j (lt_trans hj e1)] at h
    exact absurd (Option.some.inj h) (ne_of_lt (e5 j hj))

/-- The stored label of a row is decoded to itself. -/
theorem stored_label [IsStrictOrderedRing F] (num : Str → Option F) (pixel : F → F) (m : Meta F) (hL : m.purpose = 'L') (hn : m.labels.Nodup) (w : Str)
    (t : Tensor (Option F)) (h : Encoders.datasetEncode num pixel m [w] = .ok t) : bestLabel m.labels t = .ok (strip w) := by
  unfold Encoders.datasetEncode at h
  rw [if_neg (by rw [hL]; decide), if_neg (by rw [hL]; decide), if_pos hL] at h
  cases hs : Encoders.categoryEncode (F := F) m.labels [w] m.rows m.cols m.chans true with
  | throws => rw [hs] at h; cases h
  | undefined => rw [hs] at h; cases h
  | ok u =>
    rw [hs] at h
    cases h
    obtain ⟨w', hw, hd⟩ := label_shown m.labels hn [w] m.rows m.cols m.chans u hs
    cases hw
    unfold bestLabel
    rw [if_neg (by rintro ⟨c, _, hn⟩; cases hn), finite_plain, hd]

open Classical in
theorem fraction_congr {R S : Type} (p : R → Prop) (q : S → Prop) (rs : List R) (ss : List S) (h : List.Forall₂ (fun r s => p r ↔ q s) rs ss) :
    Accuracy.fraction p rs = Accuracy.fraction q ss := by
  have hc : (rs.countP fun r => decide (p r)) = ss.countP fun s => decide (q s) := by
    induction h with
    | nil => rfl
    | cons h _ ih =>
      rw [List.countP_cons, List.countP_cons, ih]
      congr 1
      rename_i r s' _ _ _
      by_cases hp : q s'
      · rw [if_pos (by simpa using h.2 hp), if_pos (by simpa using hp)]
      · rw [if_neg (by simpa using fun x => hp (h.1 x)), if_neg (by simpa using hp)]
  unfold Accuracy.fraction
  rw [hc, h.length_eq]
  cases h with
  | nil => rfl
  | cons _ _ => rw [if_neg (by simp), if_neg (by simp)]

/-- Columns with the same kind, shape and labels, in any scale. -/
def SameKind (a b : Meta F) : Prop := a.purpose = b.purpose ∧ a.rows = b.rows ∧ a.cols = b.cols ∧ a.chans = b.chans ∧ a.labels = b.labels

/-- Only numbers are scaled. -/
def ScalesNumbers (m : Meta F) : Prop := m.purpose ≠ 'N' → m.column.isNormalized = false ∧ m.column.isStandardized = false

theorem plain_scale (c : Statistics.Column F) (h : c.isNormalized = false ∧ c.isStandardized = false) (v : F) :
    Statistics.encode c v = some v ∧ Statistics.decode c v = v := by
  unfold Statistics.encode Statistics.decode
  rw [h.1, h.2]
  exact ⟨rfl, rfl⟩

theorem encode_some [IsStrictOrderedRing F] (c : Statistics.Column F) (h : Proper c) (v : F) : ∃ w, Statistics.encode c v = some w ∧ Statistics.decode c w = v :=
  Statistics.C39_round_trip c h.1 h.2 v

theorem renorm_encodes [IsStrictOrderedRing F] (num : Str → Option F) (pixel : F → F) (a b : Meta F) (c : Statistics.Column F) (hk : SameKind a b) (ha : ScalesNumbers a) (hb : ScalesNumbers b)
    (hp : Proper a.column) (hc : Alike b.column c) (ws : List Str) (t : Tensor (Option F)) (h : Encoders.datasetEncode num pixel a ws = .ok t) :
    Encoders.datasetEncode num pixel b ws = .ok (renorm a.column c t) := by
  obtain ⟨k1, k2, k3, k4, k5⟩ := hk
  have hplain : ∀ u : Tensor F, a.purpose ≠ 'N' → renorm a.column c (Encoders.plain u) = Encoders.plain u := by
    intro u hN
    unfold renorm Encoders.plain
    congr 1
    funext r c' k
    rw [Option.bind_some, (plain_scale _ (ha hN) _).2, ← alike_encode hc, (plain_scale _ (hb (k1 ▸ hN)) _).1]
  unfold Encoders.datasetEncode at h ⊢
  rw [← k1, ← k2, ← k3, ← k4, ← k5]
  split at h
  · rename_i hI
    rw [if_pos hI]
    cases hu : Encoders.pixelEncode num pixel ws a.rows a.cols a.chans true with
    | ok u => rw [hu] at h; cases h; rw [hplain u (by rw [hI]; decide)]; rfl
    | throws => rw [hu] at h; cases h
    | undefined => rw [hu] at h; cases h
  · rename_i hI
    rw [if_neg hI]
    split at h
    · rename_i hN
      rw [if_pos hN]
      cases hu : Encoders.scalarEncode num ws a.rows a.cols a.chans true with
      | ok u =>
        rw [hu] at h
        cases h
        show Out.ok _ = Out.ok _
        unfold renorm Encoders.scaled
        congr 2
        funext r c' k
        dsimp only
        obtain ⟨w, e1, e2⟩ := encode_some a.column hp (u.get r c' k)
        rw [e1, Option.bind_some, e2, alike_encode hc]
      | throws => rw [hu] at h; cases h
      | undefined => rw [hu] at h; cases h
    · rename_i hN
      rw [if_neg hN]
      split at h
      · rename_i hL
        rw [if_pos hL]
        cases hu : Encoders.categoryEncode (F := F) a.labels ws a.rows a.cols a.chans true with
        | ok u => rw [hu] at h; cases h; rw [hplain u hN]; rfl
        | throws => rw [hu] at h; cases h
        | undefined => rw [hu] at h; cases h
      · cases h

theorem renormAll_encodes [IsStrictOrderedRing F] (num : Str → Option F) (pixel : F → F) (target as bs : List (Meta F)) (hne : target ≠ [] ∨ bs = []) (hk : List.Forall₂ SameKind as bs) (ha : ∀ m ∈ as, ScalesNumbers m)
    (hb : ∀ m ∈ bs, ScalesNumbers m) (hp : ∀ m ∈ as, Proper m.column) (hc : ∀ m ∈ bs, ∀ m' ∈ target, Alike m.column m'.column) (ws : List (List Str))
    (ts : List (Tensor (Option F))) (h : Encodes num pixel as ws ts) : Encodes num pixel bs ws (renormAll target as ts) := by
  obtain ⟨hl, hf⟩ := h
  refine ⟨hl.trans hk.length_eq, ?_⟩
  cases target with
  | nil =>
    rcases hne with hne | rfl
    · exact absurd rfl hne
    · cases hk
      rw [List.zip_nil_left] at hf ⊢
      cases hf
      exact .nil
  | cons c cs =>
    unfold renormAll
    dsimp only
    clear hl hne
    induction hk generalizing ws ts with
    | nil => rw [List.zip_nil_left] at hf ⊢; rw [List.zipWith_nil_left]; exact .nil
    | cons hab _ ih =>
      cases ws with
      | nil => rw [List.zip_nil_right] at hf ⊢; cases hf; rw [List.zipWith_nil_right]; exact .nil
      | cons w ws =>
        rw [List.zip_cons_cons, List.forall₂_cons_left_iff] at hf
        obtain ⟨t, ts', h1, h2, rfl⟩ := hf
        rw [List.zip_cons_cons, List.zipWith_cons_cons]
        refine .cons (renorm_encodes num pixel _ _ _ hab (ha _ List.mem_cons_self) (hb _ List.mem_cons_self) (hp _ List.mem_cons_self)
          (hc _ List.mem_cons_self c List.mem_cons_self) w t h1) ?_
        exact ih (fun m hm => ha m (List.mem_cons_of_mem _ hm)) (fun m hm => hb m (List.mem_cons_of_mem _ hm)) (fun m hm => hp m (List.mem_cons_of_mem _ hm))
          ws ts' h2 (fun m hm => hc m (List.mem_cons_of_mem _ hm))

theorem accuracy_rows [IsStrictOrderedRing F] (num : Str → Option F) (pixel : F → F) (predict : List (Tensor (Option F)) → Out (List (Tensor (Option F))))
    (given expected : List (Meta F)) (rows : List (List (Tensor (Option F)) × List (Tensor (Option F)))) (words : List (List (List Str) × List Str))
    (hn : words.length ≤ 2 ^ 24) (hlabel : ∀ m ∈ expected, m.purpose = 'L' ∧ m.labels.Nodup)
    (hrows : List.Forall₂ (fun ws row => Encodes num pixel given ws.1 row.1 ∧ Encodes num pixel expected (ws.2.map fun w => [w]) row.2) words rows)
    (hpredict : ∀ ws ∈ words, ∀ ts, Encodes num pixel given ws.1 ts → ∃ ps, predict ts = .ok ps ∧ List.Forall₂ Fits expected ps) :
    Accuracy.categorical predict (expected.map fun m => bestLabel m.labels) (-1) (rows.map fun r => ⟨r.1, r.2⟩) =
      .ok (Accuracy.fraction (RightRow num pixel predict given expected) words) := by
  have hlen : ∀ (ms : List (Meta F)) ws ts, Encodes num pixel ms ws ts → ts.length = ms.length := by
    intro ms ws ts h
    rw [← h.2.length_eq, List.length_zip, h.1, Nat.min_self]
  have key : ∀ (ws : List (List Str) × List Str) (row : List (Tensor (Option F)) × List (Tensor (Option F))), ws ∈ words →
      Encodes num pixel given ws.1 row.1 ∧ Encodes num pixel expected (ws.2.map fun w => [w]) row.2 →
      Accuracy.Decodable predict (expected.map fun m => bestLabel m.labels) ⟨row.1, row.2⟩ ∧
        (Accuracy.Right predict (expected.map fun m => bestLabel m.labels) ⟨row.1, row.2⟩ ↔ RightRow num pixel predict given expected ws) := by
    intro ws row hws ⟨h1', h2'⟩
    obtain ⟨ps, hps, hfit⟩ := hpredict ws hws row.1 h1'
    have l1 := hfit.length_eq
    have l2 := hlen _ _ _ h2'
    have l3 : ws.2.length = expected.length := by simpa using h2'.1
    have hat : ∀ i (hi : i < expected.length), ∃ l, bestLabel expected[i].labels (ps[i]'(by omega)) = .ok l ∧
        (∀ l', Means expected[i] (ps[i]'(by omega)) (.label l') ↔ l' = l) ∧
        bestLabel expected[i].labels (row.2[i]'(by omega)) = .ok (strip (ws.2[i]'(by omega))) := by
      intro i hi
      have hm := hlabel _ (List.getElem_mem hi)
      have hf := (List.forall₂_iff_get.1 hfit).2 i hi (by omega)
      simp only [List.get_eq_getElem] at hf
      obtain ⟨l, e1, e2⟩ := means_label _ hm.1 _ hf
      refine ⟨l, e1, e2, ?_⟩
      have he := (List.forall₂_iff_get.1 h2'.2).2 i (by simp; omega) (by omega)
      simp only [List.get_eq_getElem, List.getElem_zip, List.getElem_map] at he
      exact stored_label num pixel _ hm.1 hm.2 _ _ he
    have hdec : ∀ (i : Nat) (d : Tensor (Option F) → Out Str), (expected.map fun (m : Meta F) => bestLabel m.labels)[i]? = some d → ∃ hi : i < expected.length, d = bestLabel expected[i].labels := by
      intro i d hd
      rw [List.getElem?_map, Option.map_eq_some_iff] at hd
      obtain ⟨m, hm, rfl⟩ := hd
      obtain ⟨hi, rfl⟩ := List.getElem?_eq_some_iff.1 hm
      exact ⟨hi, rfl⟩
    refine ⟨⟨ps, hps, ?_⟩, ?_, ?_⟩
    · intro i d hd
      obtain ⟨hi, rfl⟩ := hdec i d hd
      obtain ⟨l, e1, _, e3⟩ := hat i hi
      exact ⟨_, _, l, _, List.getElem?_eq_getElem (by omega), List.getElem?_eq_getElem (by show i < row.2.length; omega), e1, e3⟩
    · rintro ⟨ps', hps', hall⟩
      dsimp only at hps'
      rw [hps] at hps'
      cases hps'
      refine ⟨row.1, ps, h1', hps, ?_⟩
      rw [List.forall₂_iff_get]
      refine ⟨by simp; omega, ?_⟩
      intro i i1 i2
      have hi : i < expected.length := by simp at i1; omega
      obtain ⟨l, e1, e2, e3⟩ := hat i hi
      obtain ⟨p, a, x, q1, q2, q3, q4⟩ := hall i (bestLabel expected[i].labels) (by rw [List.getElem?_map, List.getElem?_eq_getElem hi]; rfl)
      rw [List.getElem?_eq_getElem (by omega)] at q1
      dsimp only at q2
      rw [List.getElem?_eq_getElem (by omega)] at q2
      cases q1
      cases q2
      rw [e1] at q3
      cases q3
      rw [e3] at q4
      simp only [List.get_eq_getElem, List.getElem_zip]
      rw [e2]
      cases q4
      rfl
    · rintro ⟨ts, ps', he, hps', hall⟩
      rw [encodes_unique num pixel _ _ _ _ he h1'] at hps'
      rw [hps] at hps'
      cases hps'
      refine ⟨ps, hps, ?_⟩
      intro i d hd
      obtain ⟨hi, rfl⟩ := hdec i d hd
      obtain ⟨l, e1, e2, e3⟩ := hat i hi
      have := (List.forall₂_iff_get.1 hall).2 i (by simp; omega) (by omega)
      simp only [List.get_eq_getElem, List.getElem_zip] at this
      rw [e2] at this
      refine ⟨_, _, l, List.getElem?_eq_getElem (by omega), List.getElem?_eq_getElem (by show i < row.2.length; omega), e1, ?_⟩
      rw [e3, this]
  have hz := hrows
  rw [List.forall₂_iff_get] at hz
  rw [Accuracy.C113_partial predict _ (-1) _ (by decide)]
  · congr 1
    show Accuracy.fraction _ (rows.map _) = _
    apply fraction_congr
    rw [List.forall₂_map_left_iff, List.forall₂_iff_get]
    refine ⟨hz.1.symm, ?_⟩
    intro i i1 i2
    exact (key _ _ (List.getElem_mem i2) (hz.2 i i2 i1)).2
  · show (rows.map _).length ≤ _
    rw [List.length_map, ← hz.1]
    exact hn
  · intro r hr
    obtain ⟨row, hrow, rfl⟩ := List.mem_map.1 (show r ∈ rows.map _ from hr)
    obtain ⟨i, hi, rfl⟩ := List.getElem_of_mem hrow
    exact (key _ _ (List.getElem_mem _) (hz.2 i (by omega) hi)).1

/-- C120: for label columns with the same labels in the same order as those of the training data, and a task whose given columns have the same scale (for example a
single given column), the measured accuracy is the fraction of the rows whose labels are predicted. The test data may have other ranges than the training data.
Missing: other labels (`C120_labels_violated`), given columns of different scales (as in `C119_columns_violated`), more than 2^24 rows
(`C113_many_violated`). -/
theorem C120_partial [IsStrictOrderedRing F] (num : Str → Option F) (pixel : F → F) (predict : List (Tensor (Option F)) → Out (List (Tensor (Option F))))
    (given expected : List (Meta F)) (test : Dataset F) (words : List (List (List Str) × List Str)) (hn : words.length ≤ 2 ^ 24)
    (hgiven : List.Forall₂ SameKind test.given given) (hexpected : List.Forall₂ SameKind test.expected expected)
    (hnumbers : ∀ m ∈ test.given ++ given ++ test.expected ++ expected, ScalesNumbers m)
    (hscale : ∀ m ∈ given, ∀ m' ∈ given, Alike m.column m'.column) (hproper : ∀ m ∈ test.given, Proper m.column)
    (hlabel : ∀ m ∈ expected, m.purpose = 'L' ∧ m.labels.Nodup)
    (hrows : List.Forall₂ (fun ws row => Encodes num pixel test.given ws.1 row.1 ∧ Encodes num pixel test.expected (ws.2.map fun w => [w]) row.2) words test.rows)
    (hpredict : ∀ ws ∈ words, ∀ ts, Encodes num pixel given ws.1 ts → ∃ ps, predict ts = .ok ps ∧ List.Forall₂ Fits expected ps) :
    testAccuracy predict given expected test = .ok (Accuracy.fraction (RightRow num pixel predict given expected) words) := by
  have hn1 : ∀ m ∈ test.given, ScalesNumbers m := fun m hm => hnumbers m (by simp [hm])
  have hn2 : ∀ m ∈ given, ScalesNumbers m := fun m hm => hnumbers m (by simp [hm])
  have hn3 : ∀ m ∈ test.expected, ScalesNumbers m := fun m hm => hnumbers m (by simp [hm])
  have hn4 : ∀ m ∈ expected, ScalesNumbers m := fun m hm => hnumbers m (by simp [hm])
  have hf4 : ∀ m ∈ expected, m.column.isNormalized = false ∧ m.column.isStandardized = false := fun m hm => hn4 m hm (by rw [(hlabel m hm).1]; decide)
  have hf3 : ∀ m ∈ test.expected, m.column.isNormalized = false ∧ m.column.isStandardized = false := by
    intro m hm
    obtain ⟨i, hi, rfl⟩ := List.getElem_of_mem hm
    have hk := (List.forall₂_iff_get.1 hexpected).2 i hi (by rw [← hexpected.length_eq]; exact hi)
    have := hlabel _ (List.getElem_mem (by rw [← hexpected.length_eq]; exact hi))
    exact hn3 _ hm (by rw [show test.expected[i].purpose = _ from hk.1]; rw [show (expected.get _).purpose = 'L' from this.1]; decide)
  have hne : ∀ l : List (Meta F), l ≠ [] ∨ l = [] := fun l => (em (l = [])).symm
  unfold testAccuracy openWith andThen
  rw [if_neg (by rw [hgiven.length_eq, hexpected.length_eq]; simp)]
  dsimp only
  apply accuracy_rows num pixel predict given expected _ words hn hlabel _ hpredict
  rw [List.forall₂_map_right_iff]
  refine hrows.imp fun ws row h => ⟨?_, ?_⟩
  · exact renormAll_encodes num pixel given test.given given (hne _) hgiven hn1 hn2 hproper hscale ws.1 row.1 h.1
  · refine renormAll_encodes num pixel expected test.expected expected (hne _) hexpected hn3 hn4 ?_ ?_ _ row.2 h.2
    · intro m hm
      have a := hf3 m hm
      exact ⟨fun h => (by rw [a.1] at h; cases h), fun h => (by rw [a.2] at h; cases h)⟩
    · intro m hm t ht
      have a := hf4 m hm
      have b := hf4 t ht
      exact ⟨a.2.trans b.2.symm, a.1.trans b.1.symm, fun h => (by rw [a.2] at h; cases h), fun h => (by rw [a.1] at h; cases h)⟩

/-- C120 fails for test data with other labels: if a label `c` that occurs in the test data is unknown to the task, then a task that always predicts the same other
label has an accuracy of 100% on test data with only this label. -/
theorem C120_labels_violated [IsStrictOrderedRing F] (num : Str → Option F) (pixel : F → F) (known seen : List Str) (hk : seen.Nodup)
    (hl : known.length = seen.length) (c : Str) (hc : strip c ∈ seen) (hunknown : strip c ∉ known) (given : List (Meta F)) (hg : ∀ m ∈ given, Proper m.column)
    (hs : ∀ m ∈ given, ∀ m' ∈ given, Alike m.column m'.column) (words : List (List (List Str))) (hw : words ≠ []) (hn : words.length ≤ 2 ^ 24)
    (ts : List (List (Tensor (Option F)))) (ht : List.Forall₂ (Encodes num pixel given) words ts) :
    ∃ (predict : List (Tensor (Option F)) → Out (List (Tensor (Option F)))) (test : Dataset F), test.given = given ∧ test.expected = [label seen] ∧
      List.Forall₂ (fun ws row => Encodes num pixel given ws row.1 ∧ Encodes num pixel [label seen] [[c]] row.2) words test.rows ∧
      testAccuracy predict given [label known] test = .ok (some 1) ∧
      ∀ ws ∈ words, ¬ RightRow num pixel predict given [label known] (ws, [c]) := by
  obtain ⟨i, hi, hic⟩ := List.getElem_of_mem hc
  have hi' : seen[i]? = some (strip c) := by rw [List.getElem?_eq_getElem hi, hic]
  have hstore := store_label (F := F) num pixel seen hk c i hi'
  have hrows : ∀ (words : List (List (List Str))) (ts : List (List (Tensor (Option F)))), List.Forall₂ (Encodes num pixel given) words ts →
      List.Forall₂ (fun ws (row : List (Tensor (Option F)) × List (Tensor (Option F))) => Encodes num pixel given ws row.1 ∧
        Encodes num pixel [label seen] [[c]] row.2) words (ts.map fun t => (t, [oneHot seen.length i])) := by
    intro words ts h
    rw [List.forall₂_map_right_iff]
    exact h.imp fun _ _ h => ⟨h, rfl, .cons hstore .nil⟩
  have hki : i < known.length := by omega
  refine ⟨fun _ => .ok [oneHot known.length i], ⟨given, [label seen], ts.map fun t => (t, [oneHot seen.length i])⟩, rfl, rfl, hrows words ts ht, ?_, ?_⟩
  · have hopen : openWith ⟨given, [label seen], ts.map fun t => (t, [oneHot seen.length i])⟩ given [label known] =
        .ok (ts.map fun t => (t, [oneHot (F := F) seen.length i])) := by
      unfold openWith
      rw [if_neg (by simp)]
      congr 1
      rw [List.map_map]
      apply List.map_congr_left
      intro t htm
      obtain ⟨j, hj, rfl⟩ := List.getElem_of_mem htm
      have hj' := (List.forall₂_iff_get.1 ht).2 j (by rw [ht.length_eq]; exact hj) hj
      have g1 := renormAll_alike given given ts[j] (by
        have := hj'.2.length_eq
        rw [List.length_zip, hj'.1, Nat.min_self] at this
        exact this.symm) hs hg
      have g2 := renormAll_alike [label known] [label seen] [oneHot (F := F) seen.length i] rfl (by
        intro m hm t ht
        rw [List.mem_singleton] at hm ht
        rw [hm, ht]
        exact alike_refl _) (by
        intro m hm
        rw [List.mem_singleton] at hm
        rw [hm]
        exact ⟨fun h => (by cases h), fun h => (by cases h)⟩)
      simp only [Function.comp_apply, g1, g2]
    unfold testAccuracy andThen
    rw [hopen]
    dsimp only
    have hbest : ∃ l, bestLabel known (oneHot (F := F) known.length i) = .ok l := by
      rw [bestLabel_oneHot _ _ _ hki, List.getElem?_eq_getElem hki]
      exact ⟨_, rfl⟩
    obtain ⟨l, hbest⟩ := hbest
    have hright : ∀ t : List (Tensor (Option F)), Accuracy.Right (fun _ => .ok [oneHot known.length i]) [bestLabel known] ⟨t, [oneHot (F := F) seen.length i]⟩ := by
      intro t
      refine ⟨_, rfl, ?_⟩
      intro j d hd
      cases j with
      | zero =>
        cases hd
        exact ⟨_, _, l, rfl, rfl, hbest, by rw [← hl]; exact hbest⟩
      | succ j => simp at hd
    rw [show ([label (F := F) known].map fun m => bestLabel m.labels) = [bestLabel known] from rfl, Accuracy.C113_partial _ _ (-1) _ (by decide)]
    · congr 1
      show Accuracy.fraction _ (List.map _ _) = _
      unfold Accuracy.fraction
      have hne : ts ≠ [] := by
        intro h
        rw [h] at ht
        cases ht
        exact hw rfl
      rw [if_neg (by simpa using hne)]
      rw [List.countP_eq_length.2 (by
        intro r hr
        rw [List.map_map, List.mem_map] at hr
        obtain ⟨t, _, rfl⟩ := hr
        simpa using hright t)]
      rw [div_self]
      simpa using hne
    · show (List.map _ _).length ≤ _
      rw [List.length_map, List.length_map, ← ht.length_eq]
      exact hn
    · intro r hr
      obtain ⟨row, hrow, rfl⟩ := List.mem_map.1 (show r ∈ List.map _ _ from hr)
      obtain ⟨t, _, rfl⟩ := List.mem_map.1 hrow
      obtain ⟨ps, h1, h2⟩ := hright t
      exact ⟨ps, h1, fun j d hd => (h2 j d hd).imp fun p ⟨a, x, h⟩ => ⟨a, x, x, h⟩⟩
  · rintro ws _ ⟨_, ps, _, hps, hall⟩
    cases hps
    rw [List.zip_cons_cons, List.forall₂_cons] at hall
    obtain ⟨⟨_, j, _, _, hj, _⟩, _⟩ := hall
    exact hunknown (List.mem_of_getElem? hj)

/-! ### Examples -/

/-- A task with a given and an expected column of labels that repeats its input, on two rows, the second with blanks around the label. -/
example : ∃ shown, execute (F := ℚ) .ok ⟨[label [[65], [66]]], [label [[65], [66]]], [([oneHot 2 1], []), ([oneHot 2 0], [])]⟩ = .ok shown ∧
    List.Forall₂ (Answer (fun _ => none) id .ok [label [[65], [66]]] [label [[65], [66]]]) [[[[66]]], [[[32, 65, 32]]]] shown := by
  have hl : ∀ m ∈ [label (F := ℚ) [[65], [66]]], m = label [[65], [66]] := fun m hm => List.mem_singleton.1 hm
  have hp : Proper (label (F := ℚ) [[65], [66]]).column := ⟨fun h => (by cases h), fun h => (by cases h)⟩
  have hsame : SameDescription (label (F := ℚ) [[65], [66]]) (label [[65], [66]]) := ⟨rfl, rfl, rfl, rfl, rfl, alike_refl _⟩
  have e1 : Encoders.datasetEncode (F := ℚ) (fun _ => none) id (label [[65], [66]]) [[66]] = .ok (oneHot 2 1) :=
    store_label _ _ [[65], [66]] (by decide) [66] 1 (by decide)
  have e0 : Encoders.datasetEncode (F := ℚ) (fun _ => none) id (label [[65], [66]]) [[32, 65, 32]] = .ok (oneHot 2 0) :=
    store_label _ _ [[65], [66]] (by decide) [32, 65, 32] 0 (by decide)
  refine C119_partial (F := ℚ) (fun _ => none) id .ok [label [[65], [66]]] [label [[65], [66]]] _ _ (.cons hsame .nil) (.cons hsame .nil) ?_ ?_ ?_ ?_ ?_
  · intro m hm m' hm'
    rw [hl m hm, hl m' hm']
    exact alike_refl _
  · intro m hm
    rw [hl m hm]
    exact ⟨hp, by decide⟩
  · intro m hm
    rw [hl m hm]
    exact hp
  · exact .cons ⟨rfl, .cons e1 .nil⟩ (.cons ⟨rfl, .cons e0 .nil⟩ .nil)
  · intro ws hws ts hts
    refine ⟨ts, rfl, ?_⟩
    have hts' : ts = [oneHot 2 1] ∨ ts = [oneHot 2 0] := by
      rw [List.mem_cons, List.mem_singleton] at hws
      rcases hws with rfl | rfl
      · exact Or.inl (encodes_unique _ _ _ _ _ _ hts ⟨rfl, .cons e1 .nil⟩)
      · exact Or.inr (encodes_unique _ _ _ _ _ _ hts ⟨rfl, .cons e0 .nil⟩)
    rcases hts' with rfl | rfl
    · exact .cons (fun _ => ⟨by decide, rfl, fun c _ h => by cases h⟩) .nil
    · exact .cons (fun _ => ⟨by decide, rfl, fun c _ h => by cases h⟩) .nil

/-- The same task as a test, with the labels B and B for the inputs B and A: one of the two is predicted. -/
example : testAccuracy (F := ℚ) .ok [label [[65], [66]]] [label [[65], [66]]]
    ⟨[label [[65], [66]]], [label [[65], [66]]], [([oneHot 2 1], [oneHot 2 1]), ([oneHot 2 0], [oneHot 2 1])]⟩ =
      .ok (Accuracy.fraction (RightRow (F := ℚ) (fun _ => none) id .ok [label [[65], [66]]] [label [[65], [66]]]) [([[[66]]], [[66]]), ([[[65]]], [[66]])]) := by
  have hl : ∀ m ∈ [label (F := ℚ) [[65], [66]]], m = label [[65], [66]] := fun m hm => List.mem_singleton.1 hm
  have hp : Proper (label (F := ℚ) [[65], [66]]).column := ⟨fun h => (by cases h), fun h => (by cases h)⟩
  have hsame : SameKind (label (F := ℚ) [[65], [66]]) (label [[65], [66]]) := ⟨rfl, rfl, rfl, rfl, rfl⟩
  have e1 : Encoders.datasetEncode (F := ℚ) (fun _ => none) id (label [[65], [66]]) [[66]] = .ok (oneHot 2 1) :=
    store_label _ _ [[65], [66]] (by decide) [66] 1 (by decide)
  have e0 : Encoders.datasetEncode (F := ℚ) (fun _ => none) id (label [[65], [66]]) [[65]] = .ok (oneHot 2 0) :=
    store_label _ _ [[65], [66]] (by decide) [65] 0 (by decide)
  refine C120_partial (F := ℚ) (fun _ => none) id .ok [label [[65], [66]]] [label [[65], [66]]] _ _ (by decide) (.cons hsame .nil) (.cons hsame .nil) (fun m hm _ => ?_) ?_ ?_ ?_ ?_ ?_
  · rw [show m = label [[65], [66]] by simpa using hm]
    exact ⟨rfl, rfl⟩
  · intro m hm m' hm'
    rw [hl m hm, hl m' hm']
    exact alike_refl _
  · intro m hm
    rw [hl m hm]
    exact hp
  · intro m hm
    rw [hl m hm]
    exact ⟨rfl, by decide⟩
  · exact .cons ⟨⟨rfl, .cons e1 .nil⟩, ⟨rfl, .cons e1 .nil⟩⟩ (.cons ⟨⟨rfl, .cons e0 .nil⟩, ⟨rfl, .cons e1 .nil⟩⟩ .nil)
  · intro ws hws ts hts
    refine ⟨ts, rfl, ?_⟩
    have hts' : ts = [oneHot 2 1] ∨ ts = [oneHot 2 0] := by
      rw [List.mem_cons, List.mem_singleton] at hws
      rcases hws with rfl | rfl
      · exact Or.inl (encodes_unique _ _ _ _ _ _ hts ⟨rfl, .cons e1 .nil⟩)
      · exact Or.inr (encodes_unique _ _ _ _ _ _ hts ⟨rfl, .cons e0 .nil⟩)
    rcases hts' with rfl | rfl
    · exact .cons (fun _ => ⟨by decide, rfl, fun c _ h => by cases h⟩) .nil
    · exact .cons (fun _ => ⟨by decide, rfl, fun c _ h => by cases h⟩) .nil

example : (match testAccuracy (F := ℚ) .ok [label [[65], [66]]] [label [[65], [66]]]
    ⟨[label [[65], [66]]], [label [[65], [66]]], [([oneHot 2 1], [oneHot 2 1]), ([oneHot 2 0], [oneHot 2 1])]⟩ with | .ok x => x | _ => none) = some (1 / 2) := by
  decide +kernel

/-- Labels as `C120_labels_violated` needs them: the task knows A and B, the test data have B and C. -/
example : ([[66], [67]] : List Str).Nodup ∧ strip [67] ∈ ([[66], [67]] : List Str) ∧ strip [67] ∉ ([[65], [66]] : List Str) := by decide

/-- Test data with another range than the training data, as `C120_partial` allows: the value 1, stored as 1 for the range from 0 to 1, becomes 1/2 for the range
from 0 to 2 of the training data. -/
example : SameKind (number (F := ℚ) ⟨false, 0, 1, true, 0, 1⟩) (number ⟨false, 0, 1, true, 0, 2⟩) ∧ ScalesNumbers (number (F := ℚ) ⟨false, 0, 1, true, 0, 1⟩) ∧
    Proper (number (F := ℚ) ⟨false, 0, 1, true, 0, 1⟩).column ∧
    ((renormAll [number (F := ℚ) ⟨false, 0, 1, true, 0, 2⟩] [number ⟨false, 0, 1, true, 0, 1⟩] [one 1]).map fun t => t.get 0 0 0) = [some (1 / 2)] :=
  ⟨⟨rfl, rfl, rfl, rfl, rfl⟩, fun h => absurd rfl h, ⟨fun _ => by decide +kernel, fun h => by cases h⟩, by decide +kernel⟩

end Verif.Execute
