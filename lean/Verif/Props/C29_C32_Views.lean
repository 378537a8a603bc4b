import Verif.Model.Views
import Mathlib.Algebra.BigOperators.Group.Finset.Basic
import Mathlib.Algebra.BigOperators.Intervals
import Mathlib.Tactic.Ring
import Mathlib.Data.List.Nodup

/-!
C29–C32, C35 and C75–C77. Addressing, reshaping, transposing, rotating, concatenating, padding, channel and diagonal views, for every shape.

The element type is arbitrary and tensors are arbitrary functions, also outside their range: a specification that mentions only
in-range elements can hold only if the view never depends on anything else.
-/
namespace Verif.Views
open Verif

variable {F : Type}

/-! ### C29 -/

/-- Specification of the linear position of an element: channels first, then rows, then columns. -/
def position (rows cols r c k : Nat) : Nat := (k * rows + r) * cols + c

/-- C29. Every in-range element has a linear position below the size. -/
theorem C29_position_lt (rows cols chans r c k : Nat) (hr : r < rows) (hc : c < cols) (hk : k < chans) :
    position rows cols r c k < rows * cols * chans := by
  unfold position
  have h1 : k * rows + r + 1 ≤ chans * rows := by
    calc k * rows + r + 1 ≤ k * rows + rows := by omega
      _ = (k + 1) * rows := by ring
      _ ≤ chans * rows := Nat.mul_le_mul_right _ hk
  calc (k * rows + r) * cols + c < (k * rows + r) * cols + cols := by omega
    _ = (k * rows + r + 1) * cols := by ring
    _ ≤ chans * rows * cols := Nat.mul_le_mul_right _ h1
    _ = rows * cols * chans := by ring

theorem position_decode (rows cols r c k : Nat) (hr : r < rows) (hc : c < cols) :
    position rows cols r c k / (cols * rows) = k ∧ position rows cols r c k % (cols * rows) / cols = r ∧
      position rows cols r c k % (cols * rows) % cols = c := by
  have hcr : 0 < cols * rows := Nat.mul_pos (by omega) (by omega)
  have hlt : r * cols + c < cols * rows := by
    calc r * cols + c < r * cols + cols := by omega
      _ = (r + 1) * cols := by ring
      _ ≤ rows * cols := Nat.mul_le_mul_right _ hr
      _ = cols * rows := Nat.mul_comm _ _
  have e : position rows cols r c k = r * cols + c + k * (cols * rows) := by unfold position; ring
  have hm : position rows cols r c k % (cols * rows) = r * cols + c := by
    rw [e, Nat.add_mul_mod_self_right, Nat.mod_eq_of_lt hlt]
  refine ⟨?_, ?_, ?_⟩
  · rw [e, Nat.add_mul_div_right _ _ hcr, Nat.div_eq_of_lt hlt, Nat.zero_add]
  · rw [hm, Nat.add_comm, Nat.add_mul_div_right _ _ (by omega), Nat.div_eq_of_lt hc, Nat.zero_add]
  · rw [hm, Nat.add_comm, Nat.add_mul_mod_self_right, Nat.mod_eq_of_lt hc]

/-- C29. Different elements have different positions. -/
theorem C29_position_injective (rows cols r c k r' c' k' : Nat) (hr : r < rows) (hc : c < cols) (hr' : r' < rows) (hc' : c' < cols)
    (h : position rows cols r c k = position rows cols r' c' k') : r = r' ∧ c = c' ∧ k = k' := by
  obtain ⟨h1, h2, h3⟩ := position_decode rows cols r c k hr hc
  obtain ⟨g1, g2, g3⟩ := position_decode rows cols r' c' k' hr' hc'
  rw [h] at h1 h2 h3
  exact ⟨h2.symm.trans g2, h3.symm.trans g3, h1.symm.trans g1⟩

/-- C29. Every position below the size is the position of an element. -/
theorem C29_position_surjective (rows cols chans p : Nat) (hp : p < rows * cols * chans) :
    ∃ r c k, r < rows ∧ c < cols ∧ k < chans ∧ position rows cols r c k = p := by
  have hrc : 0 < rows * cols := by
    rcases Nat.eq_zero_or_pos (rows * cols) with h | h
    · rw [h, Nat.zero_mul] at hp; omega
    · exact h
  have hc : 0 < cols := Nat.pos_of_mul_pos_left hrc
  refine ⟨p % (rows * cols) / cols, p % (rows * cols) % cols, p / (rows * cols), ?_, Nat.mod_lt _ hc, ?_, ?_⟩
  · exact Nat.div_lt_of_lt_mul (by rw [Nat.mul_comm cols]; exact Nat.mod_lt _ hrc)
  · exact Nat.div_lt_of_lt_mul hp
  · unfold position
    have e1 := Nat.div_add_mod p (rows * cols)
    have e2 := Nat.div_add_mod (p % (rows * cols)) cols
    calc (p / (rows * cols) * rows + p % (rows * cols) / cols) * cols + p % (rows * cols) % cols
        = rows * cols * (p / (rows * cols)) + (cols * (p % (rows * cols) / cols) + p % (rows * cols) % cols) := by ring
      _ = p := by rw [e2, e1]

/-- C29. Reading by linear offset agrees with reading by coordinates. -/
theorem C29_offset_get (t : Tensor F) (r c k : Nat) (hr : r < t.rows) (hc : c < t.cols) :
    offsetGet t (position t.rows t.cols r c k) = t.get r c k := by
  obtain ⟨h1, h2, h3⟩ := position_decode t.rows t.cols r c k hr hc
  rw [offsetGet, h1, h2, h3]

/-- The values of a tensor in linear order, by coordinates (specification; independent of `offsetGet`). -/
def values (t : Tensor F) : List F :=
  (List.range t.chans).flatMap fun k => (List.range t.rows).flatMap fun r => (List.range t.cols).map fun c => t.get r c k

theorem range_mul_flat {G : Type} (a b : Nat) (f : Nat → G) :
    (List.range (a * b)).map f = (List.range a).flatMap fun i => (List.range b).map fun j => f (i * b + j) := by
  induction a with
  | zero => simp
  | succ a ih =>
    rw [Nat.add_mul, Nat.one_mul, List.range_add, List.map_append, ih, List.range_succ, List.flatMap_append, List.map_map]
    simp [Function.comp_def]

theorem values_eq_offsets (t : Tensor F) : values t = (List.range t.size).map (offsetGet t) := by
  have e : t.size = t.chans * (t.rows * t.cols) := by unfold Tensor.size; ring
  rw [e, range_mul_flat]
  unfold values
  apply List.flatMap_congr
  intro k hk
  rw [range_mul_flat]
  apply List.flatMap_congr
  intro r hr
  apply List.map_congr_left
  intro c hc
  rw [List.mem_range] at hr hc
  rw [← C29_offset_get t r c k hr hc]
  congr 1
  unfold position; ring

/-- C29. Reading offsets 0, 1, ..., size-1 enumerates the values in channel, row, column order, each exactly once. -/
theorem C29_enumerates (t : Tensor F) : (List.range t.size).map (offsetGet t) = values t := (values_eq_offsets t).symm

/-- C29. Reshaping is accepted exactly when the number of elements per channel is unchanged; the result has the requested shape and the
same values in the same linear order. -/
theorem C29_reshape (t : Tensor F) (rows cols : Nat) :
    (reshape t rows cols = none ↔ t.rows * t.cols ≠ rows * cols) ∧
    ∀ v, reshape t rows cols = some v → v.rows = rows ∧ v.cols = cols ∧ v.chans = t.chans ∧ values v = values t := by
  unfold reshape
  refine ⟨by split <;> simp_all, ?_⟩
  intro v hv
  split at hv
  · exact absurd hv (by simp)
  · rename_i h
    simp only [ne_eq, Decidable.not_not] at h
    simp only [Option.some.injEq] at hv
    subst hv
    refine ⟨rfl, rfl, rfl, ?_⟩
    rw [values_eq_offsets t]
    have e : t.size = t.chans * (rows * cols) := by unfold Tensor.size; rw [h]; ring
    rw [e, range_mul_flat]
    unfold values
    apply List.flatMap_congr
    intro k _
    rw [range_mul_flat]
    apply List.flatMap_congr
    intro r _
    apply List.map_congr_left
    intro c _
    show offsetGet t _ = offsetGet t _
    congr 1; ring

/-- C29. The constructor that also names the channels additionally insists that their number is unchanged. -/
theorem C29_reshape3 (t : Tensor F) (rows cols chans : Nat) (v : Tensor F) (h : reshape3 t rows cols chans = some v) :
    v.rows = rows ∧ v.cols = cols ∧ v.chans = chans ∧ chans = t.chans ∧ values v = values t := by
  unfold reshape3 at h
  split at h
  · exact absurd h (by simp)
  · rename_i hc
    simp only [ne_eq, Decidable.not_not] at hc
    obtain ⟨h1, h2, h3, h4⟩ := (C29_reshape t rows cols).2 v h
    exact ⟨h1, h2, h3.trans hc.symm, hc, h4⟩

/-- C29. Flattening to one row or one column keeps all values in order. -/
theorem C29_flatten (t : Tensor F) : values (rowFlatten t) = values t ∧ values (columnFlatten t) = values t := by
  rw [values_eq_offsets t]
  constructor
  · simp [values, rowFlatten]
  · simp only [values, columnFlatten, List.range_one, List.flatMap_cons, List.flatMap_nil, List.append_nil, List.map_cons, List.map_nil]
    rw [← List.map_eq_flatMap]

/-- C29. Reshaping there and back is the identity. -/
theorem C29_reshape_round_trip (t v w : Tensor F) (rows cols : Nat) (h : reshape t rows cols = some v)
    (h' : reshape v t.rows t.cols = some w) : Tensor.Same w t := by
  have hrc : t.rows * t.cols = rows * cols := by
    by_contra hne
    rw [(C29_reshape t rows cols).1.mpr hne] at h
    exact absurd h (by simp)
  unfold reshape at h h'
  rw [if_neg (by simpa using hrc), Option.some.injEq] at h
  subst h
  rw [if_neg (by simpa using hrc.symm), Option.some.injEq] at h'
  subst h'
  refine ⟨rfl, rfl, rfl, ?_⟩
  intro r c k hr hc hk
  dsimp only at hr hc hk ⊢
  rw [← C29_offset_get t r c k hr hc]
  have e : r * t.cols + c + k * (t.rows * t.cols) = position t.rows t.cols r c k := by unfold position; ring
  rw [e]
  generalize hp : position t.rows t.cols r c k = p
  have hplt : p < t.rows * t.cols * t.chans := hp ▸ C29_position_lt _ _ _ r c k hr hc hk
  show offsetGet t _ = offsetGet t p
  congr 1
  have e1 := Nat.div_add_mod p (cols * rows)
  have e2 := Nat.div_add_mod (p % (cols * rows)) cols
  calc p % (cols * rows) / cols * cols + p % (cols * rows) % cols + p / (cols * rows) * (rows * cols)
      = cols * rows * (p / (cols * rows)) + (cols * (p % (cols * rows) / cols) + p % (cols * rows) % cols) := by ring
    _ = p := by rw [e2, e1]

/-- A concrete 2×3×2 tensor with all values different. -/
def exT : Tensor Nat := ⟨2, 3, 2, fun r c k => 100 * k + 10 * r + c⟩

example : ∃ v, reshape exT 3 2 = some v ∧ values v = [0, 1, 2, 10, 11, 12, 100, 101, 102, 110, 111, 112] ∧ v.get 2 1 1 = 112 :=
  ⟨_, rfl, by decide, by decide⟩
example : reshape exT 2 2 = none := by decide
example : position 2 3 1 2 1 = 11 := by decide

/-! ### C30 -/

/-- C30. Transposing exchanges rows and columns; twice is the identity. -/
theorem C30_transpose (t : Tensor F) : (transpose t).rows = t.cols ∧ (transpose t).cols = t.rows ∧ (transpose t).chans = t.chans ∧
    (∀ r c k, (transpose t).get r c k = t.get c r k) ∧ Tensor.Same (transpose (transpose t)) t :=
  ⟨rfl, rfl, rfl, fun _ _ _ => rfl, Tensor.Same.refl t⟩

/-- C30. Rotating by 180 degrees keeps the shape and reverses the values of each channel. -/
theorem C30_rotate (t : Tensor F) (r c k : Nat) (hr : r < t.rows) (hc : c < t.cols) :
    (rotate180 t).get (t.rows - 1 - r) (t.cols - 1 - c) k = t.get r c k ∧
    t.rows - 1 - r < t.rows ∧ t.cols - 1 - c < t.cols := by
  refine ⟨?_, by omega, by omega⟩
  show t.get (t.rows - 1 - (t.rows - 1 - r)) (t.cols - 1 - (t.cols - 1 - c)) k = _
  rw [show t.rows - 1 - (t.rows - 1 - r) = r by omega, show t.cols - 1 - (t.cols - 1 - c) = c by omega]

/-- C30. Rotating twice is the identity. -/
theorem C30_rotate_twice (t : Tensor F) : Tensor.Same (rotate180 (rotate180 t)) t := by
  refine ⟨rfl, rfl, rfl, ?_⟩
  intro r c k hr hc _
  exact (C30_rotate t r c k hr hc).1

/-- C30. Rotation commutes with transposition. -/
theorem C30_rotate_transpose (t : Tensor F) : Tensor.Same (rotate180 (transpose t)) (transpose (rotate180 t)) :=
  ⟨rfl, rfl, rfl, fun _ _ _ _ _ _ => rfl⟩

example : (rotate180 exT).get 0 0 1 = 112 ∧ (transpose exT).get 2 1 0 = 12 := by decide

/-! ### C31 -/

/-- Column where input `i` starts: the sum of the widths before it. -/
def startOf (ts : List (Tensor F)) (i : Nat) : Nat := ((ts.take i).map (·.cols)).sum

theorem concatLoop_spec (ts : List (Tensor F)) : ∀ (acc : Tensor F), (∀ t ∈ ts, t.rows = acc.rows) →
    ∃ v, concatLoop acc ts = some v ∧ v.rows = acc.rows ∧ v.chans = acc.chans ∧ v.cols = acc.cols + (ts.map (·.cols)).sum ∧
      (∀ r c k, c < acc.cols → v.get r c k = acc.get r c k) ∧
      ∀ i (hi : i < ts.length) r c k, c < ts[i].cols → v.get r (acc.cols + startOf ts i + c) k = ts[i].get r c k := by
  induction ts with
  | nil => intro acc _; exact ⟨acc, rfl, rfl, rfl, by simp, fun _ _ _ _ => rfl, fun i hi => absurd hi (by simp)⟩
  | cons t ts ih =>
    intro acc h
    have ht : t.rows = acc.rows := h t (by simp)
    have hcw : concatWide acc t = some ⟨acc.rows, acc.cols + t.cols, acc.chans,
        fun r c k => if c < acc.cols then acc.get r c k else t.get r (c - acc.cols) k⟩ := by
      unfold concatWide; rw [if_neg (by simp [ht])]
    obtain ⟨v, h1, h2, h3, h4, h5, h6⟩ := ih ⟨acc.rows, acc.cols + t.cols, acc.chans,
        fun r c k => if c < acc.cols then acc.get r c k else t.get r (c - acc.cols) k⟩ (fun t' ht' => h t' (by simp [ht']))
    refine ⟨v, ?_, h2, h3, ?_, ?_, ?_⟩
    · rw [concatLoop, hcw, Option.bind_some, h1]
    · rw [h4]; simp; omega
    · intro r c k hc
      rw [h5 r c k (by show c < acc.cols + t.cols; omega)]
      exact if_pos hc
    · intro i hi r c k hc
      cases i with
      | zero =>
        simp only [List.getElem_cons_zero] at hc ⊢
        have e : acc.cols + startOf (t :: ts) 0 + c = acc.cols + c := by simp [startOf]
        rw [e, h5 r (acc.cols + c) k (by show acc.cols + c < acc.cols + t.cols; omega)]
        show (if acc.cols + c < acc.cols then _ else t.get r (acc.cols + c - acc.cols) k) = _
        rw [if_neg (by omega), Nat.add_sub_cancel_left]
      | succ i =>
        simp only [List.getElem_cons_succ] at hc ⊢
        have := h6 i (by simpa using hi) r c k hc
        rw [← this]
        congr 1
        simp [startOf]; omega

/-- C31. Concatenating two or more tensors with equal row counts succeeds; the result has all columns side by side: input `i` occupies the
columns from the sum of the earlier widths on. -/
theorem C31_concat (a b : Tensor F) (ts : List (Tensor F)) (h : ∀ t ∈ b :: ts, t.rows = a.rows) :
    ∃ v, concatForward (a :: b :: ts) = some v ∧ v.rows = a.rows ∧ v.chans = a.chans ∧
      v.cols = ((a :: b :: ts).map (·.cols)).sum ∧
      ∀ i (hi : i < (a :: b :: ts).length) r c k, c < (a :: b :: ts)[i].cols →
        v.get r (startOf (a :: b :: ts) i + c) k = (a :: b :: ts)[i].get r c k := by
  obtain ⟨v, h1, h2, h3, h4, h5, h6⟩ := concatLoop_spec (b :: ts) a h
  refine ⟨v, h1, h2, h3, by rw [h4]; simp, ?_⟩
  intro i hi r c k hc
  cases i with
  | zero => simpa [startOf] using h5 r c k hc
  | succ i =>
    have := h6 i (by simpa using hi) r c k (by simpa using hc)
    simp only [List.getElem_cons_succ]
    rw [← this]
    simp [startOf]

/-- C31. Fewer than two tensors, or different row counts, are rejected. -/
theorem C31_concat_rejects : concatForward ([] : List (Tensor F)) = none ∧ (∀ a : Tensor F, concatForward [a] = none) ∧
    ∀ a b : Tensor F, a.rows ≠ b.rows → concatForward [a, b] = none := by
  refine ⟨rfl, fun _ => rfl, ?_⟩
  intro a b h
  simp [concatForward, concatLoop, concatWide, h]

theorem concatBackwardFrom_spec (e : Tensor F) (ws : List Nat) : ∀ start, (∀ w ∈ ws, 0 < w) → start + ws.sum ≤ e.cols →
    ∃ out, concatBackwardFrom e start ws = some out ∧ out.length = ws.length ∧
      ∀ i (hi : i < out.length) (hw : i < ws.length), out[i].rows = e.rows ∧ out[i].cols = ws[i] ∧ out[i].chans = e.chans ∧
        ∀ r c k, out[i].get r c k = e.get r (start + (ws.take i).sum + c) k := by
  induction ws with
  | nil => intro start _ _; exact ⟨[], rfl, rfl, fun i hi => absurd hi (by simp)⟩
  | cons w ws ih =>
    intro start hpos hle
    have hw : 0 < w := hpos w (by simp)
    rw [List.sum_cons] at hle
    obtain ⟨out, h1, h2, h3⟩ := ih (start + w) (fun w' hw' => hpos w' (by simp [hw'])) (by omega)
    have hwin : window e start (start + w) = some ⟨e.rows, w, e.chans, fun r c k => e.get r (c + start) k⟩ := by
      unfold window
      rw [if_neg (by omega), Nat.add_sub_cancel_left]
    refine ⟨_ :: out, by rw [concatBackwardFrom, hwin, Option.bind_some, h1, Option.map_some], by simp [h2], ?_⟩
    intro i hi hwi
    cases i with
    | zero =>
      refine ⟨rfl, rfl, rfl, ?_⟩
      intro r c k
      show e.get r (c + start) k = e.get r (start + 0 + c) k
      rw [Nat.add_zero, Nat.add_comm]
    | succ i =>
      obtain ⟨g1, g2, g3, g4⟩ := h3 i (by simpa using hi) (by simpa using hwi)
      refine ⟨g1, g2, g3, ?_⟩
      intro r c k
      simp only [List.getElem_cons_succ, List.take_succ_cons, List.sum_cons]
      rw [g4 r c k, Nat.add_assoc start w]

/-- C31. The backward pass hands input `i` exactly the error columns that belong to it. -/
theorem C31_backward (e : Tensor F) (ws : List Nat) (hpos : ∀ w ∈ ws, 0 < w) (hle : ws.sum ≤ e.cols) :
    ∃ out, concatBackward e ws = some out ∧ out.length = ws.length ∧
      ∀ i (hi : i < out.length) (hw : i < ws.length), out[i].rows = e.rows ∧ out[i].cols = ws[i] ∧ out[i].chans = e.chans ∧
        ∀ r c k, out[i].get r c k = e.get r ((ws.take i).sum + c) k := by
  obtain ⟨out, h1, h2, h3⟩ := concatBackwardFrom_spec e ws 0 hpos (by omega)
  refine ⟨out, h1, h2, ?_⟩
  simpa using h3

/-- C31. Cutting the concatenation apart returns the inputs. -/
theorem C31_round_trip (a b : Tensor F) (ts : List (Tensor F)) (h : ∀ t ∈ b :: ts, t.rows = a.rows ∧ t.chans = a.chans)
    (hpos : ∀ t ∈ a :: b :: ts, 0 < t.cols) :
    ∃ v out, concatForward (a :: b :: ts) = some v ∧ concatBackward v ((a :: b :: ts).map (·.cols)) = some out ∧
      List.Forall₂ Tensor.Same out (a :: b :: ts) := by
  obtain ⟨v, h1, h2, h3, h4, h5⟩ := C31_concat a b ts (fun t ht => (h t ht).1)
  obtain ⟨out, g1, g2, g3⟩ := C31_backward v ((a :: b :: ts).map (·.cols))
    (by intro w hw; rw [List.mem_map] at hw; obtain ⟨t, ht, rfl⟩ := hw; exact hpos t ht) (by rw [h4])
  refine ⟨v, out, h1, g1, ?_⟩
  rw [List.forall₂_iff_get]
  refine ⟨by simpa using g2, ?_⟩
  intro i hi hi'
  have hall : ∀ t ∈ a :: b :: ts, t.rows = a.rows ∧ t.chans = a.chans := by
    intro t ht
    rcases List.mem_cons.mp ht with rfl | ht
    · exact ⟨rfl, rfl⟩
    · exact h t ht
  obtain ⟨k1, k2, k3, k4⟩ := g3 i (by simpa using hi) (by simpa using hi')
  rw [List.getElem_map] at k2
  have hi2 : i < (a :: b :: ts).length := by simpa using hi'
  have hm := hall (a :: b :: ts)[i] (List.getElem_mem hi2)
  refine ⟨?_, ?_, ?_, ?_⟩
  · simp only [List.get_eq_getElem]; rw [k1, h2, hm.1]
  · simp only [List.get_eq_getElem]; exact k2
  · simp only [List.get_eq_getElem]; rw [k3, h3, hm.2]
  · intro r c k _ hc _
    simp only [List.get_eq_getElem] at hc ⊢
    rw [k4 r c k]
    have hc' : c < (a :: b :: ts)[i].cols := by rw [k2] at hc; exact hc
    have := h5 i hi2 r c k hc'
    rw [← this]
    congr 1
    simp [startOf, List.map_take]

/-- C31. Declared shapes are accepted exactly when there are at least two and they agree in rows and channels; the declared output width is
the sum of the widths. -/
theorem C31_declared_shape (l : List (Nat × Nat × Nat)) (out : Nat × Nat × Nat) :
    concatShape l = some out ↔ 2 ≤ l.length ∧ (∀ x ∈ l, x.1 = out.1 ∧ x.2.2 = out.2.2) ∧ out.2.1 = (l.map (·.2.1)).sum := by
  match l with
  | [] => simp [concatShape]
  | [a] => simp [concatShape]
  | s :: t :: rest =>
    have hdef : concatShape (s :: t :: rest) = if (s :: t :: rest).all (fun x => x.1 == s.1 && x.2.2 == s.2.2) then
      some (s.1, ((s :: t :: rest).map (·.2.1)).sum, s.2.2) else none := rfl
    rw [hdef]
    have hall : ((s :: t :: rest).all (fun x => x.1 == s.1 && x.2.2 == s.2.2)) = true ↔
        ∀ x ∈ s :: t :: rest, x.1 = s.1 ∧ x.2.2 = s.2.2 := by
      rw [List.all_eq_true]; simp only [Bool.and_eq_true, beq_iff_eq]
    obtain ⟨o1, o2, o3⟩ := out
    by_cases h : ∀ x ∈ s :: t :: rest, x.1 = s.1 ∧ x.2.2 = s.2.2
    · rw [if_pos (hall.mpr h)]
      simp only [Option.some.injEq, Prod.mk.injEq]
      constructor
      · rintro ⟨rfl, rfl, rfl⟩
        exact ⟨by simp, h, rfl⟩
      · rintro ⟨_, h2, h3⟩
        have := h2 s (by simp)
        exact ⟨this.1, h3.symm, this.2⟩
    · rw [if_neg (by rw [hall]; exact h)]
      simp only [reduceCtorEq, false_iff, not_and]
      intro _ h2
      exfalso
      apply h
      intro x hx
      have h1 := h2 x hx
      have h3 := h2 s (by simp)
      exact ⟨h1.1.trans h3.1.symm, h1.2.trans h3.2.symm⟩

/-- C31 has a gap: the concatenation view checks rows only, so tensors with different channel counts are accepted and the result then depends on
elements that do not exist (two tensors with identical contents give different results). -/
theorem C31_channels_unchecked_violated : ∃ a b b' v v' : Tensor Nat, Tensor.Same b b' ∧
    concatForward [a, b] = some v ∧ concatForward [a, b'] = some v' ∧ ¬ Tensor.Same v v' := by
  refine ⟨⟨1, 1, 2, fun _ _ _ => 0⟩, ⟨1, 1, 1, fun _ _ k => k⟩, ⟨1, 1, 1, fun _ _ _ => 0⟩, _, _, ⟨rfl, rfl, rfl, ?_⟩, rfl, rfl, ?_⟩
  · intro r c k _ _ hk
    show k = 0
    have : k < 1 := hk
    omega
  · intro h
    have := h.2.2.2 0 1 1 (by decide) (by decide) (by decide)
    simp at this

example : ∃ v out, concatForward [exT, exT] = some v ∧ concatBackward v [3, 3] = some out ∧ List.Forall₂ Tensor.Same out [exT, exT] :=
  C31_round_trip exT exT [] (by simp) (by simp [exT])

/-! ### C32 -/

/-- C32. The padded view has the extended shape, the original values at the shifted positions, and zero in the four borders. -/
theorem C32_zero_pad [Zero F] (t : Tensor F) (top bottom left right : Nat) :
    (zeroPad t top bottom left right).rows = top + t.rows + bottom ∧
    (zeroPad t top bottom left right).cols = left + t.cols + right ∧
    (zeroPad t top bottom left right).chans = t.chans ∧
    (∀ r c k, r < t.rows → c < t.cols → (zeroPad t top bottom left right).get (top + r) (left + c) k = t.get r c k) ∧
    (∀ r c k, (r < top ∨ top + t.rows ≤ r ∨ c < left ∨ left + t.cols ≤ c) → (zeroPad t top bottom left right).get r c k = 0) := by
  refine ⟨by simp only [zeroPad]; omega, by simp only [zeroPad]; omega, rfl, ?_, ?_⟩
  · intro r c k hr hc
    simp only [zeroPad]
    rw [if_neg (by omega), Nat.add_sub_cancel_left, Nat.add_sub_cancel_left]
  · intro r c k h
    simp only [zeroPad]
    rw [if_pos]
    omega

/-- C32. Padding by nothing is the identity. -/
theorem C32_no_padding [Zero F] (t : Tensor F) : Tensor.Same (zeroPad t 0 0 0 0) t := by
  obtain ⟨h1, h2, h3, h4, _⟩ := C32_zero_pad t 0 0 0 0
  refine ⟨by rw [h1]; omega, by rw [h2]; omega, h3, ?_⟩
  intro r c k hr hc _
  rw [h1] at hr; rw [h2] at hc
  have := h4 r c k (by omega) (by omega)
  rwa [Nat.zero_add, Nat.zero_add] at this

example : (zeroPad exT 1 0 2 1).get 2 4 1 = 112 ∧ (zeroPad exT 1 0 2 1).get 0 4 1 = 0 ∧ (zeroPad exT 1 0 2 1).get 2 5 1 = 0 := by decide

/-! ### C35 -/

/-- C35, the part that holds: the shape is the mask's, and where the mask exceeds the threshold the first alternative is taken. Missing: the
other positions, see `C35_below_violated`. -/
theorem C35_above_partial (above : F → Bool) (mask a b : Tensor F) (r c k : Nat) (h : above (mask.get r c k) = true) :
    (maskedSelect above mask a b).rows = mask.rows ∧ (maskedSelect above mask a b).cols = mask.cols ∧
    (maskedSelect above mask a b).chans = mask.chans ∧ (maskedSelect above mask a b).get r c k = a.get r c k := by
  refine ⟨rfl, rfl, rfl, ?_⟩
  simp only [maskedSelect, h, if_true]

/-- C35 is violated: the second alternative is never used, whatever the tensors; the result equals the first alternative at every position. -/
theorem C35_never_second (above : F → Bool) (mask a b b' : Tensor F) (r c k : Nat) :
    (maskedSelect above mask a b).get r c k = a.get r c k ∧ maskedSelect above mask a b = maskedSelect above mask a b' := by
  simp [maskedSelect]

/-- C35 is violated: a position below the threshold that does not show the second alternative. -/
theorem C35_below_violated : ∃ (above : Nat → Bool) (mask a b : Tensor Nat), above (mask.get 0 0 0) = false ∧
    (maskedSelect above mask a b).get 0 0 0 ≠ b.get 0 0 0 :=
  ⟨fun v => decide (v > 0), ⟨1, 2, 1, fun _ c _ => c⟩, ⟨1, 2, 1, fun _ _ _ => 7⟩, ⟨1, 2, 1, fun _ _ _ => 9⟩, rfl, by decide⟩

example : (maskedSelect (fun v => decide (v > 0)) (⟨1, 2, 1, fun _ c _ => c⟩ : Tensor Nat) ⟨1, 2, 1, fun _ _ _ => 7⟩ ⟨1, 2, 1, fun _ _ _ => 9⟩).get 0 0 0 = 7 := by
  decide

/-! ### C75: row access -/

/-- C75, the part that holds: for channel 0 the requested row is returned, element by element. Missing: other channels. -/
theorem C75_row_values_partial (t : Tensor F) (row : Nat) : (getRowValues t row 0).length = t.cols ∧
    ∀ c, c < t.cols → (getRowValues t row 0)[c]? = some (t.get row c 0) := by
  refine ⟨by simp [getRowValues], ?_⟩
  intro c hc
  simp [getRowValues, hc]

/-- C75 is violated for other channels: asking for channel 1 of a two-channel tensor returns channel 0. -/
theorem C75_row_values_violated : ∃ t : Tensor Nat, 1 < t.chans ∧
    (getRowValues t 0 1)[0]? ≠ some (t.get 0 0 1) :=
  ⟨exT, by decide, by decide⟩

/-! ### C76: diagonal matrix of a vector -/

/-- C76, the part that holds: off-diagonal elements are zero, and the first diagonal element is right. Missing: the other diagonal elements. -/
theorem C76_diagonal_partial [Zero F] (t : Tensor F) (k : Nat) :
    (diagonal t).rows = t.rows * t.cols ∧ (diagonal t).cols = t.rows * t.cols ∧
    (∀ r c, r ≠ c → (diagonal t).get r c k = 0) ∧
    (0 < t.rows → 0 < t.cols → k < t.chans → (diagonal t).get 0 0 k = offsetGet t (position t.rows t.cols 0 0 k)) := by
  refine ⟨rfl, rfl, ?_, ?_⟩
  · intro r c h; simp [diagonal, h]
  · intro h1 h2 h3
    rw [C29_offset_get t 0 0 k h1 h2]
    simp [diagonal, h1, h2, h3]

/-- C76 is violated: the diagonal matrix of the vector (1, 2) has 0 instead of 2 at its second diagonal position. -/
theorem C76_diagonal_violated : ∃ t : Tensor Nat, t.rows = 1 ∧ t.cols = 2 ∧ t.get 0 1 0 = 2 ∧ (diagonal t).get 1 1 0 = 0 :=
  ⟨⟨1, 2, 1, fun _ c _ => c + 1⟩, rfl, rfl, rfl, by decide⟩

/-! ### C77: channel views -/

theorem sumLoop_eq_sum [AddCommMonoid F] (n : Nat) (f : Nat → F) : sumLoop n f = ∑ i ∈ Finset.range n, f i := by
  unfold sumLoop
  induction n with
  | zero => simp
  | succ n ih => rw [List.range_succ, List.foldl_append, ih, Finset.sum_range_succ]; rfl

/-- C77. The channel view shows exactly the chosen channel as a one-channel tensor. -/
theorem C77_channel [Zero F] (t : Tensor F) (j : Nat) (r c : Nat) :
    (channelTo t j).rows = t.rows ∧ (channelTo t j).cols = t.cols ∧ (channelTo t j).chans = 1 ∧
    (channelTo t j).get r c 0 = t.get r c j := by
  refine ⟨rfl, rfl, rfl, ?_⟩
  simp [channelTo]

/-- C77. Summing channels: one channel holding at each position the sum over all channels. -/
theorem C77_sum_channels [AddCommMonoid F] (t : Tensor F) (r c : Nat) :
    (sumChannels t).rows = t.rows ∧ (sumChannels t).cols = t.cols ∧ (sumChannels t).chans = 1 ∧
    (sumChannels t).get r c 0 = ∑ k ∈ Finset.range t.chans, t.get r c k := by
  refine ⟨rfl, rfl, rfl, ?_⟩
  simp [sumChannels, sumToChannel, sumLoop_eq_sum]

/-- C77. Summing into channel `j` of `n`: the sum in that channel, zero in the others; summing the result again gives the sum of all channels. -/
theorem C77_sum_to_channel [AddCommMonoid F] (t : Tensor F) (j n : Nat) (r c : Nat) :
    (sumToChannel t j n).chans = n ∧
    (∀ k, (sumToChannel t j n).get r c k = if k = j then ∑ i ∈ Finset.range t.chans, t.get r c i else 0) ∧
    (j < n → (sumChannels (sumToChannel t j n)).get r c 0 = ∑ i ∈ Finset.range t.chans, t.get r c i) := by
  have h : ∀ k, (sumToChannel t j n).get r c k = if k = j then ∑ i ∈ Finset.range t.chans, t.get r c i else 0 := by
    intro k
    by_cases hk : k = j <;> simp [sumToChannel, sumLoop_eq_sum, hk]
  refine ⟨rfl, h, ?_⟩
  intro hj
  rw [(C77_sum_channels (sumToChannel t j n) r c).2.2.2]
  show ∑ k ∈ Finset.range n, _ = _
  simp only [h, Finset.sum_ite_eq', Finset.mem_range, hj, if_true]

example : (sumChannels exT).get 1 2 0 = 12 + 112 ∧ (channelTo exT 1).get 1 2 0 = 112 := by decide

end Verif.Views
