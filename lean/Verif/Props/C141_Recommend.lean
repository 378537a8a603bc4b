import Verif.Model.Recommend
import Verif.Props.C71_C100_TensorStats
import Mathlib.Tactic.Linarith

/-!
C141: the recommended bias is the most precise one into whose range the elements can be shifted, and the recommended
offset shifts them there (`FIT_BIAS_FOR_100`, with zero required).

Recorded disagreements:
* the bias alone is not enough: 8-bit tensors have no offset, and with the recommended bias elements saturate (`C141_bias_violated`);
* if zero is not required the elements need not fit, because an entry of the bag is represented by its largest element
  (`C141_without_zero_violated`);
* an entry that holds both positive and negative numbers near zero forgets some (`C141_mixed_violated`).
-/
namespace Verif.TensorStats

/-- The largest element, at least zero. -/
def high (fs : List ℚ) : ℚ := fs.foldl max 0
/-- The smallest element, at most zero. -/
def low (fs : List ℚ) : ℚ := fs.foldl min 0
/-- How far the elements and zero are apart. -/
def spread (fs : List ℚ) : ℚ := high fs - low fs

/-- The most precise bias whose range is as long as the elements are apart. -/
def bestBias (fs : List ℚ) : Int := (([14, 8, 4, 1] : List Int).find? fun b => decide (spread fs ≤ 2 * limit b)).getD (-4)

/-- No entry of the bag mixes positive, zero and negative elements. -/
def Separates (bucket : ℚ → Nat) (fs : List ℚ) : Prop :=
  ∀ x ∈ fs, bucket x < 256 ∧ ∀ y ∈ fs, bucket x = bucket y → (0 < x → 0 < y) ∧ (x < 0 → y < 0)

instance (bucket : ℚ → Nat) (fs : List ℚ) : Decidable (Separates bucket fs) := by unfold Separates; infer_instance

theorem le_foldl_max (l : List ℚ) : ∀ a, a ≤ l.foldl max a ∧ ∀ x ∈ l, x ≤ l.foldl max a := by
  induction l with
  | nil => intro a; exact ⟨le_refl a, by simp⟩
  | cons y l ih =>
    intro a
    obtain ⟨h1, h2⟩ := ih (max a y)
    refine ⟨le_trans (le_max_left a y) h1, ?_⟩
    intro x hx
    rcases List.mem_cons.mp hx with rfl | hx
    · exact le_trans (le_max_right a x) h1
    · exact h2 x hx

theorem foldl_max_mem (l : List ℚ) : ∀ a, l.foldl max a = a ∨ l.foldl max a ∈ l := by
  induction l with
  | nil => intro a; exact Or.inl rfl
  | cons y l ih =>
    intro a
    rcases ih (max a y) with h | h
    · rw [List.foldl_cons, h]
      rcases max_choice a y with h' | h' <;> rw [h']
      · exact Or.inl rfl
      · exact Or.inr (by simp)
    · exact Or.inr (List.mem_cons_of_mem _ h)

theorem foldl_min_le (l : List ℚ) : ∀ a, l.foldl min a ≤ a ∧ ∀ x ∈ l, l.foldl min a ≤ x := by
  induction l with
  | nil => intro a; exact ⟨le_refl a, by simp⟩
  | cons y l ih =>
    intro a
    obtain ⟨h1, h2⟩ := ih (min a y)
    refine ⟨le_trans h1 (min_le_left a y), ?_⟩
    intro x hx
    rcases List.mem_cons.mp hx with rfl | hx
    · exact le_trans h1 (min_le_right a x)
    · exact h2 x hx

theorem foldl_min_mem (l : List ℚ) : ∀ a, l.foldl min a = a ∨ l.foldl min a ∈ l := by
  induction l with
  | nil => intro a; exact Or.inl rfl
  | cons y l ih =>
    intro a
    rcases ih (min a y) with h | h
    · rw [List.foldl_cons, h]
      rcases min_choice a y with h' | h' <;> rw [h']
      · exact Or.inl rfl
      · exact Or.inr (by simp)
    · exact Or.inr (List.mem_cons_of_mem _ h)

/-- The value of an entry that holds elements is one of them. -/
theorem rep_mem (bucket : ℚ → Nat) (fs : List ℚ) (i : Nat) (h : 0 < (collect bucket fs i).count) : (collect bucket fs i).val ∈ fs := by
  have key : ∀ (fs seen : List ℚ) (b : Bag), ((b i).count = 0 ∧ (b i).val = 0 ∨ (b i).val ∈ seen) →
      ((fs.foldl (addToBag bucket) b i).count = 0 ∧ (fs.foldl (addToBag bucket) b i).val = 0 ∨ (fs.foldl (addToBag bucket) b i).val ∈ seen ++ fs) := by
    intro fs
    induction fs with
    | nil => intro seen b h; simpa using h
    | cons f fs ih =>
      intro seen b hb
      rw [List.foldl_cons, show seen ++ f :: fs = (seen ++ [f]) ++ fs by simp]
      apply ih
      unfold addToBag
      by_cases hi : i = bucket f
      · rw [if_pos hi]
        right
        simp only
        split
        · simp
        · rename_i hc
          rcases hb with ⟨_, h0⟩ | hm
          · rw [h0] at hc
            exfalso
            rcases lt_trichotomy f 0 with h | h | h
            · exact hc (Or.inr (Or.inl ⟨h, h⟩))
            · exact hc (Or.inr (Or.inr h))
            · exact hc (Or.inl ⟨h, h⟩)
          · exact List.mem_append_left _ hm
      · rw [if_neg hi]
        exact hb.imp id (List.mem_append_left _)
  rcases key fs [] emptyBag (Or.inl ⟨rfl, rfl⟩) with ⟨h0, _⟩ | h1
  · unfold collect at h; omega
  · rw [List.nil_append] at h1; exact h1

theorem count_pos (bucket : ℚ → Nat) (fs : List ℚ) (x : ℚ) (hx : x ∈ fs) : 0 < (collect bucket fs (bucket x)).count := by
  rw [collect_count]
  exact List.length_pos_of_mem (List.mem_filter.mpr ⟨hx, by simp⟩)

theorem count_sum (bucket : ℚ → Nat) (fs : List ℚ) (h : ∀ x ∈ fs, bucket x < 256) :
    ((List.range 256).map fun i => (collect bucket fs i).count).sum = fs.length := by
  have one : ∀ n k, k < n → ((List.range n).map fun i => if k = i then 1 else 0).sum = 1 := by
    intro n
    induction n with
    | zero => intro k hk; omega
    | succ n ih =>
      intro k hk
      rw [List.range_succ, List.map_append, List.sum_append]
      by_cases hkn : k = n
      · have hz : ((List.range n).map fun i => if k = i then 1 else 0) = (List.range n).map fun _ => 0 :=
          List.map_congr_left fun i hi => if_neg (by have := List.mem_range.mp hi; omega)
        rw [hz]
        simp [hkn]
      · rw [ih k (by omega)]
        simp [hkn]
  induction fs with
  | nil =>
    generalize List.range 256 = l
    induction l with
    | nil => rfl
    | cons i l ih' => rw [List.map_cons, List.sum_cons, ih']; rfl
  | cons f fs ih =>
    have hstep : ((List.range 256).map fun i => (collect bucket (f :: fs) i).count) =
        (List.range 256).map fun i => (collect bucket fs i).count + (if bucket f = i then 1 else 0) := by
      apply List.map_congr_left
      intro i _
      rw [collect_count, collect_count, List.filter_cons]
      by_cases hb : bucket f = i <;> simp [hb]
    rw [hstep, List.sum_map_add, ih fun x hx => h x (List.mem_cons_of_mem _ hx), one 256 (bucket f) (h f (by simp)), List.length_cons]

theorem mem_buildBag (bag : Bag) (e : ℚ × Nat) :
    e ∈ buildBag bag ↔ ∃ i < 256, e = ((bag i).val, (bag i).count) ∧ 0 < (bag i).count := by
  unfold buildBag
  rw [List.mem_insertionSort, List.mem_filter, List.mem_map]
  constructor
  · rintro ⟨⟨i, hi, rfl⟩, hc⟩
    exact ⟨i, List.mem_range.mp hi, rfl, by simpa using hc⟩
  · rintro ⟨i, hi, rfl, hc⟩
    exact ⟨⟨i, List.mem_range.mpr hi, rfl⟩, by simpa using hc⟩

theorem buildBag_sorted (bag : Bag) : (buildBag bag).Pairwise fun a b => a.1 ≤ b.1 := by
  have : Std.Total fun a b : ℚ × Nat => a.1 ≤ b.1 := ⟨fun a b => le_total a.1 b.1⟩
  have : IsTrans (ℚ × Nat) fun a b => a.1 ≤ b.1 := ⟨fun a b c h1 h2 => le_trans h1 h2⟩
  exact List.pairwise_insertionSort (fun a b : ℚ × Nat => a.1 ≤ b.1) _

theorem buildBag_sum (bag : Bag) : ((buildBag bag).map (·.2)).sum = ((List.range 256).map fun i => (bag i).count).sum := by
  unfold buildBag
  rw [((List.perm_insertionSort _ _).map _).sum_eq]
  have key : ∀ l : List Nat, (((l.map fun i => ((bag i).val, (bag i).count)).filter fun e => decide (e.2 > 0)).map (·.2)).sum =
      (l.map fun i => (bag i).count).sum := by
    intro l
    induction l with
    | nil => rfl
    | cons i l ih =>
      rw [List.map_cons, List.filter_cons]
      by_cases h : (bag i).count > 0
      · rw [if_pos (by simpa using h), List.map_cons, List.sum_cons, ih, List.map_cons, List.sum_cons]
      · rw [if_neg (by simpa using h), ih, List.map_cons, List.sum_cons]
        omega
  exact key _

theorem eightyLoop_head (t f n : Nat) : ∀ (l : List (ℚ × Nat)) (c : Nat) (a : ℚ) (acc : List ℚ),
    ∃ acc', eightyLoop t f n l c (a :: acc) = a :: acc' := by
  intro l
  induction l with
  | nil => intro c a acc; exact ⟨acc, rfl⟩
  | cons e l ih =>
    intro c a acc
    unfold eightyLoop
    dsimp only
    split
    · exact ⟨_, rfl⟩
    · split
      · exact ih _ a _
      · split
        · exact ih _ a _
        · exact ih _ a _

/-- The values of a bag: the ends of the quarters are the extreme elements, counting zero. -/
structure Good (fs : List ℚ) (v : Values) : Prop where
  quarter : ∃ a b c d e, v.quarterValues = [a, b, c, d, e] ∧ min 0 a = low fs ∧ max 0 e = high fs
  eighty : ∃ a l, v.eightyValues = a :: l ∧ min 0 a = low fs

theorem bagValues_good (bucket : ℚ → Nat) (fs : List ℚ) (hne : fs ≠ []) (hs : Separates bucket fs) :
    ∃ v, bagValues fs.length (collect bucket fs) = some v ∧ Good fs v := by
  have hL : buildBag (collect bucket fs) ≠ [] := by
    obtain ⟨x, hx⟩ := List.exists_mem_of_ne_nil fs hne
    exact List.ne_nil_of_mem ((mem_buildBag _ _).mpr ⟨bucket x, (hs x hx).1, rfl, count_pos bucket fs x hx⟩)
  have hsort := buildBag_sorted (collect bucket fs)
  have hsum : fs.length = ((buildBag (collect bucket fs)).map (·.2)).sum := by
    rw [buildBag_sum, count_sum bucket fs fun x hx => (hs x hx).1]
  obtain ⟨a, b, c, d, e, hq, ha, he, -⟩ := C100_quarters _ hL hsort _ hsum
  have hmem : ∀ v ∈ buildBag (collect bucket fs), v.1 ∈ fs := by
    intro v hv
    obtain ⟨i, _, rfl, hc⟩ := (mem_buildBag _ _).mp hv
    exact rep_mem bucket fs i hc
  have hrep : ∀ x ∈ fs, ∃ v ∈ buildBag (collect bucket fs), (0 < x → x ≤ v.1) ∧ (x < 0 → v.1 ≤ x) := by
    intro x hx
    refine ⟨_, (mem_buildBag _ _).mpr ⟨bucket x, (hs x hx).1, rfl, count_pos bucket fs x hx⟩, ?_, ?_⟩
    · intro h0
      rw [(C71_collect bucket fs (bucket x)).1 fun f hf hb => ((hs x hx).2 f hf hb.symm).1 h0]
      exact (le_foldl_max _ 0).2 x (List.mem_filter.mpr ⟨hx, by simp⟩)
    · intro h0
      rw [(C71_collect bucket fs (bucket x)).2 fun f hf hb => ((hs x hx).2 f hf hb.symm).2 h0]
      exact (foldl_min_le _ 0).2 x (List.mem_filter.mpr ⟨hx, by simp⟩)
  have hhead : ∀ v ∈ buildBag (collect bucket fs), a ≤ v.1 := by
    intro v hv
    rw [← ha]
    have hcons := List.cons_head_tail hL
    rw [← hcons] at hv hsort
    rcases List.mem_cons.mp hv with h | h
    · rw [h]
    · exact (List.pairwise_cons.mp hsort).1 v h
  have hlast : ∀ v ∈ buildBag (collect bucket fs), v.1 ≤ e := by
    intro v hv
    rw [← he]
    have hl := List.dropLast_append_getLast hL
    rw [← hl] at hv hsort
    rcases List.mem_append.mp hv with h | h
    · exact (List.pairwise_append.mp hsort).2.2 v h _ (by simp)
    · rw [List.mem_singleton.mp h]
  have hamem : a ∈ fs := ha ▸ hmem _ (List.head_mem hL)
  have hemem : e ∈ fs := he ▸ hmem _ (List.getLast_mem hL)
  have hlow : min 0 a = low fs := by
    apply le_antisymm
    · rcases foldl_min_mem fs 0 with h | h
      · unfold low; rw [h]; exact min_le_left 0 a
      · rcases lt_or_ge (fs.foldl min 0) 0 with h0 | h0
        · obtain ⟨v, hv, _, h2⟩ := hrep _ h
          exact le_trans (min_le_right 0 a) (le_trans (hhead v hv) (h2 h0))
        · exact le_trans (min_le_left 0 a) h0
    · exact le_min (foldl_min_le fs 0).1 ((foldl_min_le fs 0).2 a hamem)
  have hhigh : max 0 e = high fs := by
    apply le_antisymm
    · exact max_le (le_foldl_max fs 0).1 ((le_foldl_max fs 0).2 e hemem)
    · rcases foldl_max_mem fs 0 with h | h
      · unfold high; rw [h]; exact le_max_left 0 e
      · rcases lt_or_ge 0 (fs.foldl max 0) with h0 | h0
        · obtain ⟨v, hv, h2, _⟩ := hrep _ h
          exact le_trans (le_trans (h2 h0) (hlast v hv)) (le_max_right 0 e)
        · exact le_trans h0 (le_max_left 0 e)
  have heighty : ∃ l, eighty fs.length (buildBag (collect bucket fs)) = some (a :: l) := by
    have hlen : fs.length ≠ 0 := fun h => hne (List.length_eq_zero_iff.mp h)
    generalize buildBag (collect bucket fs) = L at hL ha
    cases L with
    | nil => exact absurd rfl hL
    | cons x l =>
      unfold eighty
      simp only [if_neg hlen]
      have ha' : x.1 = a := ha
      obtain ⟨acc', hacc⟩ := eightyLoop_head (fs.length / 10) (min (fs.length / 2) (5 * (fs.length / 10)))
        (min (fs.length * 9 / 10) (9 * (fs.length / 10))) (x :: l) 0 x.1 []
      rw [hacc, ← ha']
      exact ⟨_, rfl⟩
  obtain ⟨l, hl⟩ := heighty
  refine ⟨⟨[a, b, c, d, e], a :: l⟩, ?_, ⟨a, b, c, d, e, rfl, hlow, hhigh⟩, ⟨a, l, rfl, hlow⟩⟩
  unfold bagValues
  rw [hq, hl]
  rfl

theorem spread_nonneg (fs : List ℚ) : 0 ≤ spread fs := by
  have h1 := (le_foldl_max fs 0).1
  have h2 := (foldl_min_le fs 0).1
  unfold spread high low
  linarith

theorem rangeOf_good (fs : List ℚ) (v : Values) (h : Good fs v) : rangeOf .hundred true v = some (spread fs) := by
  obtain ⟨a, b, c, d, e, hq, h1, h2⟩ := h.quarter
  unfold rangeOf
  rw [hq]
  simp only [spanOf, if_true, h1, h2]
  rw [show high fs - low fs = spread fs from rfl, abs_of_nonneg (spread_nonneg fs)]

theorem chooseBias_good (fs : List ℚ) (bags : Int → Bag) (hb : ∀ b ∈ ([14, 8, 4, 1, -4] : List Int), ∃ v, bagValues fs.length (bags b) = some v ∧ Good fs v) :
    ∀ (l : List Int), (∀ b ∈ l, b ∈ ([14, 8, 4, 1, -4] : List Int)) → ∀ v, ∃ v', Good fs v' ∧
      chooseBias .hundred true fs.length bags (spread fs) l v = some ((l.find? fun b => decide (spread fs ≤ 2 * limit b)).getD (-4), v') := by
  intro l
  induction l with
  | nil =>
    intro _ v
    obtain ⟨v', h1, h2⟩ := hb (-4) (by simp)
    exact ⟨v', h2, by simp [chooseBias, h1]⟩
  | cons b l ih =>
    intro hl v
    obtain ⟨w, hw, hgood⟩ := hb b (hl b (by simp))
    unfold chooseBias bagAndCheck
    by_cases hlt : 2 * limit b < spread fs
    · obtain ⟨v', h1, h2⟩ := ih (fun x hx => hl x (List.mem_cons_of_mem _ hx)) v
      refine ⟨v', h1, ?_⟩
      rw [if_pos hlt, List.find?_cons_of_neg (by simpa using hlt)]
      exact h2
    · refine ⟨w, hgood, ?_⟩
      have hle : spread fs ≤ 2 * limit b := not_lt.mp hlt
      rw [if_neg hlt, hw, List.find?_cons_of_pos (by simpa using hle)]
      simp [rangeOf_good fs w hgood, hle]

/-- The recommendation for 100 percent with zero: the most precise bias whose range is long enough for the elements and zero, and the
middle between the extreme ones as offset. Partial: no entry may mix elements of different signs, for any of the five biases. -/
theorem C141_best_partial (bucket : Int → ℚ → Nat) (fs : List ℚ) (hne : fs ≠ [])
    (hs : ∀ b ∈ ([14, 8, 4, 1, -4] : List Int), Separates (bucket b) fs) :
    recommend .hundred true bucket fs = some (bestBias fs, (low fs + high fs) / 2) := by
  have hb : ∀ b ∈ ([14, 8, 4, 1, -4] : List Int), ∃ v, bagValues fs.length (collect (bucket b) fs) = some v ∧ Good fs v :=
    fun b hb => bagValues_good (bucket b) fs hne (hs b hb)
  have hcount : (countAndMinMax (collect (bucket 14) fs)).1 = fs.length :=
    count_sum (bucket 14) fs fun x hx => (hs 14 (by simp) x hx).1
  have hfirst : ∀ lo hi, firstBias lo hi ∈ ([14, 8, 4, 1, -4] : List Int) := by
    intro lo hi
    unfold firstBias
    split
    · simp
    · split
      · simp
      · split
        · simp
        · split <;> simp
  obtain ⟨v, hv, hgood⟩ := hb _ (hfirst (countAndMinMax (collect (bucket 14) fs)).2.1 (countAndMinMax (collect (bucket 14) fs)).2.2)
  obtain ⟨v', hgood', hc⟩ := chooseBias_good fs (fun b => collect (bucket b) fs) hb [14, 8, 4, 1] (by simp) v
  obtain ⟨a, l, he, ha⟩ := hgood'.eighty
  unfold recommend
  simp only [hcount]
  rw [hv]
  simp only [Option.bind_eq_bind, Option.bind_some, rangeOf_good fs v hgood, hc]
  have hoff : offsetOf .hundred true (spread fs) v' = some (low fs + spread fs / 2) := by
    unfold offsetOf
    rw [he]
    simp only [if_true, ha]
  rw [hoff]
  have hmid : low fs + spread fs / 2 = (low fs + high fs) / 2 := by unfold spread; ring
  rw [Option.bind_some, hmid]
  rfl

/-- Shifted by the recommended offset every element, and zero, is in the range of the recommended bias; unless the bias is −4, the last resort. -/
theorem C141_window_partial (bucket : Int → ℚ → Nat) (fs : List ℚ) (hne : fs ≠ [])
    (hs : ∀ b ∈ ([14, 8, 4, 1, -4] : List Int), Separates (bucket b) fs) (bias : Int) (offset : ℚ)
    (h : recommend .hundred true bucket fs = some (bias, offset)) (hb : bias ≠ -4) :
    ∀ x, x = 0 ∨ x ∈ fs → |x - offset| ≤ limit bias := by
  rw [C141_best_partial bucket fs hne hs] at h
  simp only [Option.some.injEq, Prod.mk.injEq] at h
  obtain ⟨h1, h2⟩ := h
  have hfit : spread fs ≤ 2 * limit bias := by
    unfold bestBias at h1
    cases hf : ([14, 8, 4, 1] : List Int).find? fun b => decide (spread fs ≤ 2 * limit b) with
    | none => rw [hf] at h1; exact absurd h1.symm hb
    | some b =>
      rw [hf] at h1
      have := List.find?_some hf
      rw [← h1]
      simpa using this
  intro x hx
  have hlo : low fs ≤ x := by
    rcases hx with rfl | hx
    · exact (foldl_min_le fs 0).1
    · exact (foldl_min_le fs 0).2 x hx
  have hhi : x ≤ high fs := by
    rcases hx with rfl | hx
    · exact (le_foldl_max fs 0).1
    · exact (le_foldl_max fs 0).2 x hx
  unfold spread at hfit
  rw [← h2, abs_le]
  constructor <;> linarith

/-- No more precise bias would do: whatever the offset, an element or zero would be out of its range. -/
theorem C141_most_precise_partial (bucket : Int → ℚ → Nat) (fs : List ℚ) (hne : fs ≠ [])
    (hs : ∀ b ∈ ([14, 8, 4, 1, -4] : List Int), Separates (bucket b) fs) (bias : Int) (offset : ℚ)
    (h : recommend .hundred true bucket fs = some (bias, offset)) (b : Int) (hb : b ∈ ([14, 8, 4, 1] : List Int)) (hlt : bias < b) :
    ∀ other : ℚ, ∃ x, (x = 0 ∨ x ∈ fs) ∧ limit b < |x - other| := by
  rw [C141_best_partial bucket fs hne hs] at h
  simp only [Option.some.injEq, Prod.mk.injEq] at h
  obtain ⟨h1, _⟩ := h
  have hbig : 2 * limit b < spread fs := by
    by_contra hcon
    have hle : decide (spread fs ≤ 2 * limit b) = true := by simpa using hcon
    have hge : b ≤ bestBias fs := by
      unfold bestBias
      simp only [List.mem_cons, List.not_mem_nil, or_false] at hb
      simp only [List.find?_cons, List.find?_nil]
      rcases hb with rfl | rfl | rfl | rfl
      · rw [hle]; simp
      · rw [hle]; split <;> simp
      · rw [hle]; split
        · simp
        · split <;> simp
      · rw [hle]; split
        · simp
        · split
          · simp
          · split <;> simp
    omega
  intro other
  by_contra hcon
  push Not at hcon
  have hh : high fs = 0 ∨ high fs ∈ fs := foldl_max_mem fs 0
  have hl : low fs = 0 ∨ low fs ∈ fs := foldl_min_mem fs 0
  have a1 := (abs_le.mp (hcon _ hh)).2
  have a2 := (abs_le.mp (hcon _ hl)).1
  unfold spread at hbig
  linarith

/-- The five limits are what the largest codes of the five biases decode to. -/
theorem C141_limits : ∀ b ∈ ([14, 8, 4, 1, -4] : List Int),
    (FloatBits.value (QuarterFloat.quarterToFloat QuarterFloat.QUARTER_MAX b) : ℚ) / 2 ^ 149 = limit b := by
  decide +kernel

/-- Elements of both signs and zero, for the codes of the repository: bias 4 (a range of 1920 to both sides, after the shift). -/
example : ([-500, -20, 0, 30, 2000] : List ℚ) ≠ [] ∧ (∀ b ∈ ([14, 8, 4, 1, -4] : List Int), Separates (codeOf b) [-500, -20, 0, 30, 2000]) ∧
    recommend .hundred true codeOf [-500, -20, 0, 30, 2000] = some (4, 750) ∧ limit 4 = 1920 := by decide +kernel

/-- Bias 14 is more precise than bias 4, and not enough whatever the offset. -/
example : (14 : Int) ∈ ([14, 8, 4, 1] : List Int) ∧ (4 : Int) < 14 ∧ limit 14 = 15 / 8 := by decide +kernel

/-- Disagreement: the recommended bias does not hold the elements by itself. The elements of 8-bit tensors are stored without an offset, and with the bias recommended for 200 and 5
the number 200 is stored as the largest code, 120. -/
theorem C141_bias_violated : recommend .hundred true codeOf [200, 5] = some (8, 100) ∧ limit 8 = 120 ∧
    codeOf 8 200 = QuarterFloat.QUARTER_MAX.toNat ∧ codeOf 4 200 ≠ QuarterFloat.QUARTER_MAX.toNat := by decide +kernel

/-- Disagreement: if zero is not required an element may lie out of the range also after the shift: the bag of the recommended bias keeps
the largest of 16 and 16.9 only. No entry mixes signs. -/
theorem C141_without_zero_violated : recommend .hundred false codeOf [16, 169 / 10, 2569 / 10] = some (8, 1369 / 10) ∧
    limit 8 < |16 - 1369 / 10| ∧ ∀ b ∈ ([14, 8, 4, 1, -4] : List Int), Separates (codeOf b) [16, 169 / 10, 2569 / 10] := by decide +kernel

/-- Disagreement: an entry that holds small numbers of both signs keeps one of them, here 1/1024, and the other falls out of the range. -/
theorem C141_mixed_violated : recommend .hundred true codeOf [240, -1 / 1024, 1 / 1024] = some (8, 120) ∧
    limit 8 < |(-1 / 1024) - 120| := by decide +kernel

end Verif.TensorStats
