import Verif.Model.FloatIndex
import Verif.Lemmas.FloatDistance

/-!
# C149: where the largest and smallest elements are, and which tensors are equal, for all floats
-/
namespace Verif.FloatIndex
open Verif FloatBits FloatOrder

/-! ### Specification -/

/-- Of `n` elements the one at `i` is a number, and no number among them is larger. -/
def Largest (n : Nat) (f : Nat → F32) (i : Nat) : Prop := i < n ∧ Num (f i) ∧ ∀ j < n, Num (f j) → val (f j) ≤ val (f i)

/-- Of `n` elements the one at `i` is a number, and no number among them is smaller. -/
def Smallest (n : Nat) (f : Nat → F32) (i : Nat) : Prop := i < n ∧ Num (f i) ∧ ∀ j < n, Num (f j) → val (f i) ≤ val (f j)

/-! ### Helpers: both directions at once, with a key that is to be largest -/

/-- The loop for one index. -/
def loop (better : F32 → F32 → Bool) (start : F32) (n : Nat) (f : Nat → F32) : Nat × F32 :=
  (List.range n).foldl (fun s i => if better (f i) s.2 then (i, f i) else s) (0, start)

/-- The loop for all indices. -/
def loopAll (better : F32 → F32 → Bool) (start : F32) (n : Nat) (f : Nat → F32) : List Nat × F32 :=
  (List.range n).foldl (fun s i => if better (f i) s.2 then ([i], f i) else if equal (f i) s.2 then (s.1 ++ [i], s.2) else s) ([], start)

/-- What the key has to do with the comparison. -/
structure Keyed (better : F32 → F32 → Bool) (start : F32) (key : F32 → Int) : Prop where
  better_iff : ∀ a b, better a b = true ↔ Num a ∧ Num b ∧ key b < key a
  start_num : Num start
  start_le : ∀ a, Num a → key start ≤ key a
  key_val : ∀ a b, key a = key b ↔ val a = val b

theorem equal_iff (a b : F32) : equal a b = true ↔ Num a ∧ Num b ∧ val a = val b := by
  unfold equal Num val
  simp [and_assoc]

section
variable {better : F32 → F32 → Bool} {start : F32} {key : F32 → Int}

theorem loop_spec (K : Keyed better start key) (f : Nat → F32) : ∀ n,
    let s := loop better start n f
    Num s.2 ∧ (∀ i < n, Num (f i) → key (f i) ≤ key s.2) ∧
    ((s = (0, start) ∧ ∀ i < n, Num (f i) → key (f i) = key start) ∨ (s.1 < n ∧ f s.1 = s.2 ∧ key start < key s.2 ∧ ∀ j < s.1, Num (f j) → key (f j) < key s.2)) := by
  intro n
  induction n with
  | zero => exact ⟨K.start_num, fun i hi => absurd hi (by omega), Or.inl ⟨rfl, fun i hi => absurd hi (by omega)⟩⟩
  | succ n ih =>
    have e : loop better start (n + 1) f = if better (f n) (loop better start n f).2 then (n, f n) else loop better start n f := by
      unfold loop
      rw [List.range_succ, List.foldl_append]
      rfl
    simp only [] at ih ⊢
    rw [e]
    generalize loop better start n f = s at ih ⊢
    obtain ⟨h1, h2, h3⟩ := ih
    split
    · rename_i hb
      obtain ⟨b1, b2, b3⟩ := (K.better_iff _ _).1 hb
      refine ⟨b1, fun i hi hn => ?_, Or.inr ⟨by simp, rfl, lt_of_le_of_lt (K.start_le _ h1) b3, fun j hj hn => lt_of_le_of_lt (h2 j hj hn) b3⟩⟩
      rcases Nat.lt_or_ge i n with hlt | hge
      · exact le_of_lt (lt_of_le_of_lt (h2 i hlt hn) b3)
      · rw [show i = n by omega]
    · rename_i hb
      have hle : Num (f n) → key (f n) ≤ key s.2 := by
        intro hn
        by_contra hc
        exact hb ((K.better_iff _ _).2 ⟨hn, h1, not_le.1 hc⟩)
      refine ⟨h1, fun i hi hn => ?_, ?_⟩
      · rcases Nat.lt_or_ge i n with hlt | hge
        · exact h2 i hlt hn
        · rw [show i = n by omega] at hn ⊢; exact hle hn
      · rcases h3 with ⟨hs, h3⟩ | ⟨h3, h4⟩
        · refine Or.inl ⟨hs, fun i hi hn => ?_⟩
          rcases Nat.lt_or_ge i n with hlt | hge
          · exact h3 i hlt hn
          · rw [show i = n by omega] at hn ⊢
            refine le_antisymm ?_ (K.start_le _ hn)
            have := hle hn
            rwa [hs] at this
        · exact Or.inr ⟨by omega, h4⟩

theorem loopAll_spec (K : Keyed better start key) (f : Nat → F32) : ∀ n,
    let s := loopAll better start n f
    Num s.2 ∧ (∀ i < n, Num (f i) → key (f i) ≤ key s.2) ∧ (s.2 = start ∨ ∃ j < n, f j = s.2) ∧ s.1.Pairwise (· < ·) ∧ (∀ i, i ∈ s.1 ↔ i < n ∧ Num (f i) ∧ key (f i) = key s.2) := by
  intro n
  induction n with
  | zero => exact ⟨K.start_num, fun i hi => absurd hi (by omega), Or.inl rfl, List.Pairwise.nil, fun i => by simp [loopAll]⟩
  | succ n ih =>
    have e : loopAll better start (n + 1) f = if better (f n) (loopAll better start n f).2 then ([n], f n)
        else if equal (f n) (loopAll better start n f).2 then ((loopAll better start n f).1 ++ [n], (loopAll better start n f).2) else loopAll better start n f := by
      unfold loopAll
      rw [List.range_succ, List.foldl_append]
      rfl
    simp only [] at ih ⊢
    rw [e]
    generalize loopAll better start n f = s at ih ⊢
    obtain ⟨h1, h2, h3, h4, h5⟩ := ih
    split
    · rename_i hb
      obtain ⟨b1, b2, b3⟩ := (K.better_iff _ _).1 hb
      refine ⟨b1, fun i hi hn => ?_, Or.inr ⟨n, by omega, rfl⟩, by simp, fun i => ?_⟩
      · rcases Nat.lt_or_ge i n with hlt | hge
        · exact le_of_lt (lt_of_le_of_lt (h2 i hlt hn) b3)
        · rw [show i = n by omega]
      · simp only [List.mem_singleton]
        constructor
        · rintro rfl
          exact ⟨by omega, b1, rfl⟩
        · rintro ⟨hi, hn, hk⟩
          by_contra hne
          have := h2 i (by omega) hn
          omega
    · rename_i hb
      have hle : Num (f n) → key (f n) ≤ key s.2 := by
        intro hn
        by_contra hc
        exact hb ((K.better_iff _ _).2 ⟨hn, h1, not_le.1 hc⟩)
      have hall : ∀ i < n + 1, Num (f i) → key (f i) ≤ key s.2 := by
        intro i hi hn
        rcases Nat.lt_or_ge i n with hlt | hge
        · exact h2 i hlt hn
        · rw [show i = n by omega] at hn ⊢; exact hle hn
      have h3' : s.2 = start ∨ ∃ j < n + 1, f j = s.2 := h3.imp id fun ⟨j, hj, he⟩ => ⟨j, by omega, he⟩
      split
      · rename_i he
        obtain ⟨e1, e2, e3⟩ := (equal_iff _ _).1 he
        refine ⟨h1, hall, h3', ?_, fun i => ?_⟩
        · rw [List.pairwise_append]
          refine ⟨h4, by simp, fun a ha b hb => ?_⟩
          simp only [List.mem_singleton] at hb
          have := ((h5 a).1 ha).1
          omega
        · simp only [List.mem_append, List.mem_singleton, h5]
          constructor
          · rintro (⟨a, b⟩ | rfl)
            · exact ⟨by omega, b⟩
            · exact ⟨by omega, e1, (K.key_val _ _).2 e3⟩
          · rintro ⟨a, b⟩
            rcases Nat.lt_or_ge i n with hlt | hge
            · exact Or.inl ⟨hlt, b⟩
            · exact Or.inr (by omega)
      · rename_i he
        refine ⟨h1, hall, h3', h4, fun i => ?_⟩
        rw [h5]
        constructor
        · rintro ⟨a, b⟩
          exact ⟨by omega, b⟩
        · rintro ⟨a, b, c⟩
          refine ⟨?_, b, c⟩
          rcases Nat.lt_or_ge i n with hlt | hge
          · exact hlt
          · rw [show i = n by omega] at b c
            exact absurd ((equal_iff _ _).2 ⟨b, h1, (K.key_val _ _).1 c⟩) he

theorem loop_first (K : Keyed better start key) (f : Nat → F32) (n : Nat) :
    let r := (loop better start n f).1
    ((∃ i < n, Num (f i) ∧ key start < key (f i)) → r < n ∧ Num (f r) ∧ (∀ j < n, Num (f j) → key (f j) ≤ key (f r)) ∧ ∀ j < r, Num (f j) → key (f j) < key (f r)) ∧
    ((∀ i < n, Num (f i) → key (f i) = key start) → r = 0) := by
  obtain ⟨h1, h2, h3⟩ := loop_spec K f n
  refine ⟨fun ⟨i, hi, hn, hk⟩ => ?_, fun h => ?_⟩
  · rcases h3 with ⟨_, h3⟩ | ⟨a, b, c, d⟩
    · have := h3 i hi hn
      omega
    · rw [b]
      exact ⟨a, h1, h2, d⟩
  · rcases h3 with ⟨h3, _⟩ | ⟨a, b, c, d⟩
    · rw [h3]
    · have := h _ a (by rw [b]; exact h1)
      rw [b] at this
      omega

theorem loopAll_all (K : Keyed better start key) (f : Nat → F32) (n : Nat) :
    (loopAll better start n f).1.Pairwise (· < ·) ∧
      ∀ i, i ∈ (loopAll better start n f).1 ↔ i < n ∧ Num (f i) ∧ ∀ j < n, Num (f j) → key (f j) ≤ key (f i) := by
  obtain ⟨h1, h2, h3, h4, h5⟩ := loopAll_spec K f n
  refine ⟨h4, fun i => ?_⟩
  rw [h5]
  constructor
  · rintro ⟨a, b, c⟩
    exact ⟨a, b, fun j hj hn => c ▸ h2 j hj hn⟩
  · rintro ⟨a, b, c⟩
    refine ⟨a, b, le_antisymm (h2 i a b) ?_⟩
    rcases h3 with h3 | ⟨j, hj, he⟩
    · rw [h3]; exact K.start_le _ b
    · rw [← he]; exact c j hj (by rw [he]; exact h1)

end

theorem keyed_max : Keyed (fun a b => F32.lt b a) minusInf val where
  better_iff a b := by rw [lt_iff]; tauto
  start_num := by decide
  start_le a h := by
    have := neg_val_le a h
    rwa [show val minusInf = -(Rounding.pattern 0x7F800000 : Int) by decide +kernel]
  key_val a b := Iff.rfl

theorem keyed_min : Keyed (fun a b => F32.lt a b) inf (fun a => -val a) where
  better_iff a b := by rw [lt_iff]; constructor <;> rintro ⟨h1, h2, h3⟩ <;> exact ⟨h1, h2, by omega⟩
  start_num := by decide
  start_le a h := by
    have := val_le a h
    rw [show val inf = (Rounding.pattern 0x7F800000 : Int) by decide +kernel]
    exact Int.neg_le_neg this
  key_val a b := by constructor <;> intro h <;> omega

/-! ### C149 -/

/-- The index of the largest element of a row: NaN are passed over; if some number is larger than minus infinity, the first one of the largest numbers; otherwise 0. -/
theorem C149_max (t : Tensor F32) (channel row : Nat) :
    ((∃ c < t.cols, Num (t.get row c channel) ∧ val minusInf < val (t.get row c channel)) →
      Largest t.cols (fun c => t.get row c channel) (maxIndexByRow t channel row) ∧
      ∀ j < maxIndexByRow t channel row, ¬ Largest t.cols (fun c => t.get row c channel) j) ∧
    ((∀ c < t.cols, Num (t.get row c channel) → t.get row c channel = minusInf) → maxIndexByRow t channel row = 0) := by
  obtain ⟨h1, h2⟩ := loop_first keyed_max (fun c => t.get row c channel) t.cols
  refine ⟨fun h => ?_, fun h => h2 fun i hi hn => by rw [h i hi hn]⟩
  obtain ⟨a, b, c, d⟩ := h1 h
  exact ⟨⟨a, b, c⟩, fun j hj hl => absurd (d j hj hl.2.1) (not_lt.2 (hl.2.2 _ a b))⟩

/-- The same for a column. -/
theorem C149_max_column (t : Tensor F32) (channel col : Nat) :
    ((∃ r < t.rows, Num (t.get r col channel) ∧ val minusInf < val (t.get r col channel)) →
      Largest t.rows (fun r => t.get r col channel) (maxIndexByCol t channel col) ∧
      ∀ j < maxIndexByCol t channel col, ¬ Largest t.rows (fun r => t.get r col channel) j) ∧
    ((∀ r < t.rows, Num (t.get r col channel) → t.get r col channel = minusInf) → maxIndexByCol t channel col = 0) := by
  obtain ⟨h1, h2⟩ := loop_first keyed_max (fun r => t.get r col channel) t.rows
  refine ⟨fun h => ?_, fun h => h2 fun i hi hn => by rw [h i hi hn]⟩
  obtain ⟨a, b, c, d⟩ := h1 h
  exact ⟨⟨a, b, c⟩, fun j hj hl => absurd (d j hj hl.2.1) (not_lt.2 (hl.2.2 _ a b))⟩

/-- The index of the smallest element of a row. -/
theorem C149_min (t : Tensor F32) (channel row : Nat) :
    ((∃ c < t.cols, Num (t.get row c channel) ∧ val (t.get row c channel) < val inf) →
      Smallest t.cols (fun c => t.get row c channel) (minIndex t channel row) ∧
      ∀ j < minIndex t channel row, ¬ Smallest t.cols (fun c => t.get row c channel) j) ∧
    ((∀ c < t.cols, Num (t.get row c channel) → t.get row c channel = inf) → minIndex t channel row = 0) := by
  obtain ⟨h1, h2⟩ := loop_first keyed_min (fun c => t.get row c channel) t.cols
  refine ⟨fun ⟨i, hi, hn, hv⟩ => ?_, fun h => h2 fun i hi hn => by rw [h i hi hn]⟩
  obtain ⟨a, b, c, d⟩ := h1 ⟨i, hi, hn, Int.neg_lt_neg hv⟩
  refine ⟨⟨a, b, fun j hj hn => Int.neg_le_neg_iff.1 (c j hj hn)⟩, fun j hj hl => ?_⟩
  have e1 := d j hj hl.2.1
  have e2 := hl.2.2 _ a b
  exact absurd (Int.neg_lt_neg_iff.1 e1) (not_lt.2 e2)

/-- All indices of the largest elements, and nothing else, in order; none only if the row has no number. -/
theorem C149_all_max (t : Tensor F32) (channel row : Nat) :
    (maxIndices t channel row).Pairwise (· < ·) ∧ ∀ i, i ∈ maxIndices t channel row ↔ Largest t.cols (fun c => t.get row c channel) i :=
  loopAll_all keyed_max (fun c => t.get row c channel) t.cols

/-- All indices of the smallest elements. -/
theorem C149_all_min (t : Tensor F32) (channel row : Nat) :
    (minIndices t channel row).Pairwise (· < ·) ∧ ∀ i, i ∈ minIndices t channel row ↔ Smallest t.cols (fun c => t.get row c channel) i := by
  obtain ⟨h1, h2⟩ := loopAll_all keyed_min (fun c => t.get row c channel) t.cols
  refine ⟨h1, fun i => (h2 i).trans ?_⟩
  constructor <;> rintro ⟨a, b, c⟩ <;> exact ⟨a, b, fun j hj hn => by have := c j hj hn; simp only [] at this ⊢; omega⟩

/-- The check for invalid elements. -/
theorem C149_invalid (t : Tensor F32) :
    hasInvalidValues t = false ↔ ∀ r c k, r < t.rows → c < t.cols → k < t.chans → Rounding.Finite (t.get r c k) := by
  have key : ∀ a : F32, (isNaN a.bits || isInf a.bits) = false ↔ Rounding.Finite a := by
    intro a
    unfold Rounding.Finite isNaN isInf isFinite
    by_cases h : expo a.bits = 255 <;> by_cases h' : frac a.bits = 0 <;> simp [h, h']
  simp only [hasInvalidValues, List.any_eq_false, List.mem_range, Bool.not_eq_true, key]
  constructor
  · intro h r c k hr hc hk
    exact h k hk r hr c hc
  · intro h k hk r hr c hc
    exact h r c k hr hc hk

/-- A text is decoded whenever there is a label for every column, whatever the numbers are: the label of the largest one, or the first label. -/
theorem C149_decoded {S : Type} (labels : List S) (t : Tensor F32) (h0 : 0 < labels.length) (h : t.cols ≤ labels.length) :
    ∃ l, decodeBest labels t = some l ∧ (Largest t.cols (fun c => t.get 0 c 0) (maxIndexByRow t 0 0) ∨ labels[0]? = some l) := by
  obtain ⟨h1, h2⟩ := loop_first keyed_max (fun c => t.get 0 c 0) t.cols
  by_cases hc : ∃ i < t.cols, Num (t.get 0 i 0) ∧ val minusInf < val (t.get 0 i 0)
  · obtain ⟨a, b, c, d⟩ := h1 hc
    have hlt : maxIndexByRow t 0 0 < labels.length := lt_of_lt_of_le a h
    exact ⟨labels[maxIndexByRow t 0 0], List.getElem?_eq_getElem hlt, Or.inl ⟨a, b, c⟩⟩
  · have e : maxIndexByRow t 0 0 = 0 := h2 fun i hi hn => by
      by_contra hne
      exact hc ⟨i, hi, hn, lt_of_le_of_ne (keyed_max.start_le _ hn) (Ne.symm hne)⟩
    refine ⟨labels[0], ?_, Or.inr (List.getElem?_eq_getElem h0)⟩
    unfold decodeBest
    rw [e]
    exact List.getElem?_eq_getElem h0

/-- The largest difference that is accepted, 1000 * 2^-23, and the next float. -/
def tolerance : F32 := ⟨0x38FA0000#32⟩
def beyond : F32 := ⟨0x38FA0001#32⟩

theorem rough_units (d : F32) (hn : neg d.bits = false) :
    ((!isNaN d.bits && decide (value d.bits ≤ 1000 * 2 ^ 126)) || F32.lt d ⟨0x00800000#32⟩) = true ↔ Num d ∧ d.units ≤ tolerance.units := by
  have hv : value d.bits = (d.units : Int) := by
    have := val_units d
    rw [hn] at this
    exact this
  have ht : ((1000 * 2 ^ 126 : Int)) = (tolerance.units : Int) := by decide +kernel
  have hm : val ⟨0x00800000#32⟩ ≤ (tolerance.units : Int) := by decide +kernel
  rw [Bool.or_eq_true, lt_iff, Bool.and_eq_true, decide_eq_true_eq, ht, hv]
  have : val d = (d.units : Int) := hv
  rw [this]
  generalize tolerance.units = T at *
  generalize val ⟨0x00800000#32⟩ = m at *
  unfold Num
  constructor
  · rintro (⟨h1, h2⟩ | ⟨h1, _, h2⟩)
    · exact ⟨by simpa using h1, by omega⟩
    · exact ⟨h1, by omega⟩
  · rintro ⟨h1, h2⟩
    exact Or.inl ⟨by simpa using h1, by omega⟩

theorem rough_iff (a b : F32) : roughlyEqual a b = true ↔ Num (a - b) ∧ (a - b).units ≤ tolerance.units := by
  obtain ⟨h1, h2, h3, _⟩ := abs_facts (a - b)
  unfold roughlyEqual
  simp only []
  rw [rough_units _ h1, h2, h3]

theorem sub_not_finite (a b : F32) (h : ¬ Rounding.Finite a ∨ ¬ Rounding.Finite b) : ¬ Rounding.Finite (a - b) := by
  show ¬ Rounding.Finite (F32.add a (F32.negate b))
  have hb : ¬ Rounding.Finite b → ¬ Rounding.Finite (F32.negate b) := fun h h' => h ((negate_finite b).1 h')
  have nn : ¬ Rounding.Finite F32.nan := by decide
  have ninf : ∀ c : F32, isInf c.bits = true → ¬ Rounding.Finite c := by
    intro c hc hf
    exact absurd (Rounding.finite_not c hf).2 (by simp [hc])
  unfold F32.add
  split
  · exact nn
  · rename_i hn
    split
    · rename_i hi
      split
      · exact nn
      · exact ninf a hi
    · rename_i hi
      split
      · rename_i hi'
        exact ninf _ hi'
      · rename_i hi'
        simp only [Bool.or_eq_true, not_or, Bool.not_eq_true] at hn hi hi'
        exfalso
        have fin : ∀ c : F32, isNaN c.bits = false → isInf c.bits = false → Rounding.Finite c := by
          intro c h1 h2
          rcases num_cases c h1 with h | h
          · exact h.1
          · rw [h.1] at h2; exact absurd h2 (by decide)
        rcases h with h | h
        · exact h (fin a hn.1 hi)
        · exact hb h (fin _ hn.2 hi')

/-- Two finite floats are accepted as equal if they differ by at most 1000 * 2^-23, which is about 0.00012, and not if they differ by more than one 16-millionth more than that. -/
theorem C149_rough (a b : F32) (ha : Rounding.Finite a) (hb : Rounding.Finite b) :
    (|Rounding.real a - Rounding.real b| ≤ 1000 / 2 ^ 23 → roughlyEqual a b = true) ∧
    (roughlyEqual a b = true → |Rounding.real a - Rounding.real b| < 1000 / 2 ^ 23 * (1 + 1 / 16384000)) := by
  obtain ⟨h1, h2⟩ := FloatDistance.sub_units a b ha hb
  have hd : |Rounding.real a - Rounding.real b| = ((val a - val b).natAbs : ℝ) / 2 ^ 149 := by
    have : Rounding.real a - Rounding.real b = ((val a - val b : Int) : ℝ) / 2 ^ 149 := by
      unfold Rounding.real val
      push_cast
      ring
    rw [this, abs_div, abs_of_pos (by positivity : (0 : ℝ) < 2 ^ 149), Nat.cast_natAbs, Int.cast_abs]
  have e1 : (tolerance.units : ℝ) = 1000 / 2 ^ 23 * 2 ^ 149 := by
    have : tolerance.units = 1000 * 2 ^ 126 := by decide +kernel
    rw [this]; push_cast; norm_num
  have e2 : (beyond.units : ℝ) = 1000 / 2 ^ 23 * (1 + 1 / 16384000) * 2 ^ 149 := by
    have : beyond.units = 16384001 * 2 ^ 112 := by decide +kernel
    rw [this]; push_cast; norm_num
  have p149 : (0 : ℝ) < 2 ^ 149 := by positivity
  rw [rough_iff, hd, div_le_iff₀ p149, div_lt_iff₀ p149, ← e1, ← e2, h2]
  refine ⟨fun h => ⟨h1, ?_⟩, fun h => ?_⟩
  · exact Rounding.rounded_le false _ 1 (by omega) tolerance (by decide) (by rw [Nat.mul_one]; exact_mod_cast h)
  · by_contra hc
    have := Rounding.le_rounded false (val a - val b).natAbs 1 (by omega) beyond (by decide) (by rw [Nat.mul_one]; exact_mod_cast not_lt.1 hc)
    have lt : tolerance.units < beyond.units := by decide +kernel
    exact absurd (lt_of_lt_of_le lt (this.trans h.2)) (lt_irrefl _)

/-- The order of the arguments does not matter, and an infinity or a NaN is not equal to anything, not even to itself. -/
theorem C149_rough_other (a b : F32) : roughlyEqual a b = roughlyEqual b a ∧ (¬ Rounding.Finite a → roughlyEqual a b = false) := by
  have nf : ∀ a b : F32, (¬ Rounding.Finite a ∨ ¬ Rounding.Finite b) → roughlyEqual a b = false := by
    intro a b h
    have hs := sub_not_finite a b h
    rw [← Bool.not_eq_true, rough_iff]
    rintro ⟨h1, h2⟩
    rcases num_cases _ h1 with h | h
    · exact hs h.1
    · rw [h.2] at h2
      exact absurd h2 (by decide +kernel)
  refine ⟨?_, fun h => nf a b (Or.inl h)⟩
  by_cases ha : Rounding.Finite a
  · by_cases hb : Rounding.Finite b
    · rw [Bool.eq_iff_iff, rough_iff, rough_iff]
      obtain ⟨h1, h2⟩ := FloatDistance.sub_units a b ha hb
      obtain ⟨h3, h4⟩ := FloatDistance.sub_units b a hb ha
      rw [h2, h4, show (val b - val a).natAbs = (val a - val b).natAbs by omega]
      simp [h1, h3]
    · rw [nf a b (Or.inr hb), nf b a (Or.inl hb)]
  · rw [nf a b (Or.inl ha), nf b a (Or.inr ha)]

/-- `assertEqual` throws nothing exactly if the shapes are the same and all elements are accepted. -/
theorem C149_assert (t u : Tensor F32) : assertEqual t u = true ↔
    t.rows = u.rows ∧ t.cols = u.cols ∧ t.chans = u.chans ∧ ∀ r c k, r < t.rows → c < t.cols → k < t.chans → roughlyEqual (t.get r c k) (u.get r c k) = true := by
  simp only [assertEqual, Bool.and_eq_true, beq_iff_eq, List.all_eq_true, List.mem_range]
  constructor
  · rintro ⟨⟨⟨h1, h2⟩, h3⟩, h4⟩
    exact ⟨h2, h3, h1, fun r c k hr hc hk => h4 k hk r hr c hc⟩
  · rintro ⟨h2, h3, h1, h4⟩
    exact ⟨⟨⟨h1, h2⟩, h3⟩, fun k hk r hr c hc => h4 r c k hr hc hk⟩

/-! ### What does not hold -/

/-- A row as a tensor. -/
def rowOf (l : List F32) : Tensor F32 := ⟨1, l.length, 1, fun _ c _ => l.getD c 0⟩

/-- A prediction that is not a number at all is decoded as the first label; and minus infinity in the second place is overlooked, although it is the only number. -/
theorem C149_nan_violated : decodeBest ["a", "b"] (rowOf [F32.nan, F32.nan]) = some "a" ∧ (∀ i, ¬ Largest 2 (fun c => (rowOf [F32.nan, F32.nan]).get 0 c 0) i) ∧
    maxIndexByRow (rowOf [F32.nan, minusInf]) 0 0 = 0 ∧ Largest 2 (fun c => (rowOf [F32.nan, minusInf]).get 0 c 0) 1 ∧ maxIndices (rowOf [F32.nan, minusInf]) 0 0 = [1] := by
  refine ⟨by decide +kernel, ?_, by decide +kernel, ?_, by decide +kernel⟩
  · rintro i ⟨h, h', _⟩
    have : i = 0 ∨ i = 1 := by omega
    rcases this with rfl | rfl <;> exact absurd h' (by decide +kernel)
  · unfold Largest
    decide +kernel

/-- The difference that is accepted does not depend on the size of the numbers: 2^-14 is equal to its opposite and to zero; 2^24 and the next float are not equal. -/
theorem C149_absolute_violated : roughlyEqual ⟨0x38800000#32⟩ 0 = true ∧ roughlyEqual ⟨0x38000000#32⟩ ⟨0xB8000000#32⟩ = true ∧
    roughlyEqual ⟨0x4B800000#32⟩ ⟨0x4B800001#32⟩ = false ∧ assertEqual (rowOf [inf]) (rowOf [inf]) = false := by
  decide +kernel

/-! ### Examples -/

example : maxIndexByRow (rowOf [F32.nan, 0, ⟨0x3F800000#32⟩, ⟨0x3F800000#32⟩]) 0 0 = 2 ∧ maxIndices (rowOf [F32.nan, 0, ⟨0x3F800000#32⟩, ⟨0x3F800000#32⟩]) 0 0 = [2, 3] ∧
    minIndex (rowOf [F32.nan, 0, ⟨0x80000000#32⟩]) 0 0 = 1 ∧ minIndices (rowOf [F32.nan, 0, ⟨0x80000000#32⟩]) 0 0 = [1, 2] := by decide +kernel

end Verif.FloatIndex
