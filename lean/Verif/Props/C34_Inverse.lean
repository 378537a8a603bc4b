import Verif.Lemmas.Inverse
import Verif.Props.C33_C41_Products
import Mathlib.Data.Rat.Defs
import Mathlib.Algebra.Field.Rat
import Mathlib.Data.Matrix.Mul
import Mathlib.LinearAlgebra.Matrix.NonsingularInverse

/-!
C34 and C78. Matrix inversion and division over an arbitrary field (exact arithmetic).
-/
namespace Verif.Inverse
open Verif Views

set_option linter.unusedSectionVars false

variable {F : Type} [Field F] [DecidableEq F]

/-- `a · b` is the n by n unit matrix. -/
def IsOne (n : Nat) (a b : Mat F) : Prop :=
  ∀ r c, r < n → c < n → ∑ j ∈ Finset.range n, a r j * b j c = if r = c then 1 else 0

/-- A left inverse of a square matrix is a right inverse. -/
theorem isOne_comm {n : Nat} {a b : Mat F} (h : IsOne n a b) : IsOne n b a := by
  let A : Matrix (Fin n) (Fin n) F := fun i j => a i j
  let B : Matrix (Fin n) (Fin n) F := fun i j => b i j
  have h1 : A * B = 1 := by
    ext i j
    rw [Matrix.mul_apply, Matrix.one_apply]
    have := h i j i.2 j.2
    rw [Finset.sum_range] at this
    rw [show (∑ k, A i k * B k j) = ∑ k : Fin n, a i k * b k j from rfl, this]
    by_cases hij : i = j
    · simp [hij]
    · rw [if_neg hij, if_neg (fun hh => hij (Fin.ext hh))]
  have h2 : B * A = 1 := mul_eq_one_comm.mp h1
  intro r c hr hc
  have := congrFun (congrFun h2 ⟨r, hr⟩) ⟨c, hc⟩
  rw [Matrix.mul_apply, Matrix.one_apply] at this
  rw [Finset.sum_range]
  rw [show (∑ k : Fin n, b r k * a k c) = ∑ k, B ⟨r, hr⟩ k * A k ⟨c, hc⟩ from rfl, this]
  simp [Fin.ext_iff]

/-- C34. A matrix returned by the inversion is the two-sided inverse. -/
theorem C34_inverse (n : Nat) (a b : Mat F) (h : invert n a = some b) : IsOne n a b ∧ IsOne n b a := by
  unfold invert at h
  rw [Option.map_eq_some_iff] at h
  obtain ⟨m, hm, rfl⟩ := h
  have hinv := (eliminate_aux n n (le_refl _) a).1 m hm
  have hba : IsOne n (fun r c => m r (c + n)) a := by
    intro r c hr hc
    rw [← hinv.unit r c hr hc, hinv.lin r c hr hc]
    apply Finset.sum_congr rfl
    intro j _
    rw [Nat.add_comm]
  exact ⟨isOne_comm hba, hba⟩

/-- C34. The inversion fails exactly for matrices without an inverse. -/
theorem C34_rejects (n : Nat) (a : Mat F) : invert n a = none ↔ ¬∃ b, IsOne n a b := by
  constructor
  · rintro h ⟨b, hb⟩
    unfold invert at h
    rw [Option.map_eq_none_iff] at h
    obtain ⟨v, i, hi, hv, hz⟩ := (eliminate_aux n n (le_refl _) a).2 h
    apply hv
    have hba := isOne_comm hb
    have : ∑ c ∈ Finset.range n, (if i = c then 1 else 0) * v c = 0 := by
      have e : ∀ c ∈ Finset.range n, (if i = c then (1 : F) else 0) * v c = ∑ j ∈ Finset.range n, b i j * (a j c * v c) := by
        intro c hc
        rw [← hba i c hi (Finset.mem_range.mp hc), Finset.sum_mul]
        apply Finset.sum_congr rfl
        intro j _
        ring
      rw [Finset.sum_congr rfl e, Finset.sum_comm]
      apply Finset.sum_eq_zero
      intro j hj
      rw [← Finset.mul_sum, hz j (Finset.mem_range.mp hj), mul_zero]
    simpa [hi] using this
  · intro h
    cases hb : invert n a with
    | none => rfl
    | some b => exact absurd ⟨b, (C34_inverse n a b hb).1⟩ h

/-- C34. The inverse depends only on the n by n entries of the argument (as every such matrix has only one inverse). -/
theorem C34_unique (n : Nat) (a b b' : Mat F) (h : invert n a = some b) (h' : IsOne n a b') : ∀ r c, r < n → c < n → b r c = b' r c := by
  have hba := (C34_inverse n a b h).2
  intro r c hr hc
  have e1 : b r c = ∑ j ∈ Finset.range n, b r j * ∑ k ∈ Finset.range n, a j k * b' k c := by
    have : ∀ j ∈ Finset.range n, b r j * ∑ k ∈ Finset.range n, a j k * b' k c = if c = j then b r j else 0 := by
      intro j hj
      rw [h' j c (Finset.mem_range.mp hj) hc]
      by_cases hjc : j = c
      · simp [hjc]
      · rw [if_neg hjc, if_neg (fun hh => hjc hh.symm), mul_zero]
    rw [Finset.sum_congr rfl this, Finset.sum_ite_eq, if_pos (Finset.mem_range.mpr hc)]
  have e2 : b' r c = ∑ k ∈ Finset.range n, (∑ j ∈ Finset.range n, b r j * a j k) * b' k c := by
    have : ∀ k ∈ Finset.range n, (∑ j ∈ Finset.range n, b r j * a j k) * b' k c = if r = k then b' k c else 0 := by
      intro k hk
      rw [hba r k hr (Finset.mem_range.mp hk)]
      by_cases hrk : r = k
      · simp [hrk]
      · rw [if_neg hrk, if_neg hrk, zero_mul]
    rw [Finset.sum_congr rfl this, Finset.sum_ite_eq, if_pos (Finset.mem_range.mpr hr)]
  rw [e1, e2]
  simp only [Finset.mul_sum, Finset.sum_mul]
  rw [Finset.sum_comm]
  apply Finset.sum_congr rfl
  intro k _
  apply Finset.sum_congr rfl
  intro j _
  ring

/-- One list entry per channel. -/
theorem mapM_range {α : Type} (f : Nat → Option α) (n : Nat) (l : List α) (h : (List.range n).mapM f = some l) :
    l.length = n ∧ ∀ k, k < n → f k = l[k]? := by
  induction n generalizing l with
  | zero =>
    have : l = [] := by simpa using h.symm
    subst this
    exact ⟨rfl, fun k hk => absurd hk (by omega)⟩
  | succ n ih =>
    rw [List.range_succ, List.mapM_append] at h
    cases h1 : (List.range n).mapM f with
    | none => rw [h1] at h; exact absurd h (by simp)
    | some l1 =>
      rw [h1] at h
      cases h2 : f n with
      | none => simp [h2] at h
      | some y =>
        have hl : l1 ++ [y] = l := by simpa [h2] using h
        subst hl
        obtain ⟨g1, g2⟩ := ih l1 h1
        refine ⟨by simp [g1], ?_⟩
        intro k hk
        by_cases hkn : k < n
        · rw [List.getElem?_append_left (by omega)]
          exact g2 k hkn
        · obtain rfl : k = n := by omega
          rw [List.getElem?_append_right (by omega), g1]
          simpa using h2

theorem mapM_range_none {α : Type} (f : Nat → Option α) (n : Nat) : (List.range n).mapM f = none ↔ ∃ k, k < n ∧ f k = none := by
  induction n with
  | zero => simp
  | succ n ih =>
    rw [List.range_succ, List.mapM_append]
    cases h1 : (List.range n).mapM f with
    | none =>
      obtain ⟨k, hk, hf⟩ := ih.mp h1
      simp only [Option.bind_eq_bind, Option.bind_none, true_iff]
      exact ⟨k, by omega, hf⟩
    | some l1 =>
      have hno : ¬∃ k, k < n ∧ f k = none := fun hh => absurd (ih.mpr hh) (by rw [h1]; simp)
      cases h2 : f n with
      | none => simp [h2]; exact ⟨n, by omega, h2⟩
      | some y =>
        simp [h2]
        intro k hk hf
        by_cases hkn : k < n
        · exact hno ⟨k, hkn, hf⟩
        · obtain rfl : k = n := by omega
          rw [h2] at hf; exact absurd hf (by simp)

/-- C34. The inverse view of a square tensor exists exactly if every channel is invertible; multiplying with it, on either side and
with the library's own matrix product, gives the identity tensor. -/
theorem C34_tensor (t : Tensor F) (hsq : t.rows = t.cols) :
    (inverseTensor t = none ↔ ∃ k, k < t.chans ∧ ¬∃ b, IsOne t.rows (fun r c => t.get r c k) b) ∧
    ∀ v, inverseTensor t = some v →
      (∃ w, matmul t v = some w ∧ Tensor.Same w (identity t.rows t.rows t.chans)) ∧
      (∃ w, matmul v t = some w ∧ Tensor.Same w (identity t.rows t.rows t.chans)) := by
  constructor
  · unfold inverseTensor invertChannels
    rw [Option.map_eq_none_iff, mapM_range_none]
    simp only [C34_rejects]
  · intro v hv
    unfold inverseTensor at hv
    rw [Option.map_eq_some_iff] at hv
    obtain ⟨ms, hms, rfl⟩ := hv
    obtain ⟨hl, hk⟩ := mapM_range _ _ _ hms
    have key : ∀ k, k < t.chans → IsOne t.rows (fun r c => t.get r c k) ((ms[k]?.getD fun _ _ => 0)) ∧
        IsOne t.rows ((ms[k]?.getD fun _ _ => 0)) (fun r c => t.get r c k) := by
      intro k hkk
      have h1 := hk k hkk
      have h2 : ms[k]? = some (ms[k]'(by omega)) := List.getElem?_eq_getElem (by omega)
      rw [h2] at h1
      rw [h2, Option.getD_some]
      exact C34_inverse _ _ _ h1
    constructor
    · cases hw : matmul t ⟨t.rows, t.rows, t.chans, fun r c k => (ms[k]?.getD fun _ _ => 0) r c⟩ with
      | none => exact absurd ⟨hsq.symm, rfl⟩ ((C33_matmul _ _).1.mp hw)
      | some w =>
        obtain ⟨g1, g2, g3, g4⟩ := (C33_matmul _ _).2 w hw
        refine ⟨w, rfl, g1, g2, g3, ?_⟩
        intro r c k hr hc hkk
        rw [g4]
        rw [g1] at hr; rw [g2] at hc; rw [g3] at hkk
        rw [← hsq]
        exact (key k hkk).1 r c hr hc
    · cases hw : matmul ⟨t.rows, t.rows, t.chans, fun r c k => (ms[k]?.getD fun _ _ => 0) r c⟩ t with
      | none => exact absurd ⟨rfl, rfl⟩ ((C33_matmul _ _).1.mp hw)
      | some w =>
        obtain ⟨g1, g2, g3, g4⟩ := (C33_matmul _ _).2 w hw
        refine ⟨w, rfl, g1, by rw [g2]; exact hsq.symm, g3, ?_⟩
        intro r c k hr hc hkk
        rw [g4]
        rw [g1] at hr; rw [g2] at hc; rw [g3] at hkk
        exact (key k hkk).2 r c hr (hsq ▸ hc)

/-- A 2 by 2 example that needs a row swap, and a singular one. -/
def exSwap : Tensor ℚ := ⟨2, 2, 1, fun r c _ => if r = 0 ∧ c = 0 then 0 else if r = 1 ∧ c = 1 then 3 else 2⟩

example : (inverseTensor exSwap).map values = some [-3/4, 1/2, 1/2, 0] := by decide +kernel
example : (inverseTensor (⟨2, 2, 1, fun r c _ => (r + 1) * (c + 1)⟩ : Tensor ℚ)).map values = none := by decide +kernel

/-! ### C78 -/

/-- C78, for one by one matrices. Missing: everything larger, see `C78_matdiv_violated`. -/
theorem C78_matdiv_partial (a b : Tensor F) (ha : a.rows = 1 ∧ a.cols = 1 ∧ a.chans = b.chans) (hb : b.rows = 1 ∧ b.cols = 1)
    (hz : ∀ k, k < b.chans → b.get 0 0 k ≠ 0) :
    ∃ v inv w, matdiv a b = some v ∧ inverseTensor b = some inv ∧ matmul a inv = some w ∧ Tensor.Same v w := by
  cases hi : inverseTensor b with
  | none =>
    obtain ⟨k, hk, hno⟩ := (C34_tensor b (hb.1.trans hb.2.symm)).1.mp hi
    exfalso
    apply hno
    refine ⟨fun _ _ => (b.get 0 0 k)⁻¹, ?_⟩
    intro r c hr hc
    rw [hb.1] at hr hc
    obtain rfl : r = 0 := by omega
    obtain rfl : c = 0 := by omega
    rw [hb.1, Finset.sum_range_one, if_pos rfl]
    exact mul_inv_cancel₀ (hz k hk)
  | some inv =>
    have hshape : inv.rows = b.rows ∧ inv.cols = b.rows ∧ inv.chans = b.chans := by
      unfold inverseTensor at hi
      rw [Option.map_eq_some_iff] at hi
      obtain ⟨ms, _, rfl⟩ := hi
      exact ⟨rfl, rfl, rfl⟩
    have hm : matdiv a b = some ⟨a.rows, inv.cols, a.chans, fun r _ k => sumLoop a.cols fun j => a.get r j k * inv.get r j k⟩ := by
      unfold matdiv
      rw [hi, Option.bind_some, if_neg]
      simp only [ne_eq, not_or, Decidable.not_not]
      exact ⟨by rw [hshape.1, ha.1, hb.1], by rw [hshape.2.1, ha.2.1, hb.1], by rw [hshape.2.2, ha.2.2]⟩
    cases hw : matmul a inv with
    | none =>
      exact absurd ⟨by rw [hshape.1, ha.2.1, hb.1], by rw [hshape.2.2, ha.2.2]⟩ ((C33_matmul _ _).1.mp hw)
    | some w =>
      obtain ⟨g1, g2, g3, g4⟩ := (C33_matmul _ _).2 w hw
      refine ⟨_, inv, w, hm, rfl, hw, g1.symm, g2.symm, g3.symm, ?_⟩
      intro r c k hr hc hk
      have hr : r < a.rows := hr
      have hc : c < inv.cols := hc
      rw [ha.1] at hr; rw [hshape.2.1, hb.1] at hc
      obtain rfl : r = 0 := by omega
      obtain rfl : c = 0 := by omega
      have e : (sumLoop a.cols fun j => a.get 0 j k * inv.get 0 j k) = a.get 0 0 k * inv.get 0 0 k := by
        rw [ha.2.1, sumLoop_eq_sum, Finset.sum_range_one]
      rw [g4, show ∑ i ∈ Finset.range a.cols, a.get 0 i k * inv.get i 0 k = a.get 0 0 k * inv.get 0 0 k by
        rw [ha.2.1, Finset.sum_range_one]]
      exact e

/-- C78 is violated: dividing by the 2 by 2 unit matrix does not return the dividend (every row is filled with its diagonal value). -/
theorem C78_matdiv_violated :
    ∃ (a : Tensor ℚ) (v : Tensor ℚ), matdiv a (identity 2 2 1) = some v ∧ ¬Tensor.Same v a ∧ values a = [1, 2, 3, 4] ∧ values v = [1, 1, 4, 4] := by
  refine ⟨⟨2, 2, 1, fun r c _ => 2 * r + c + 1⟩, (matdiv (⟨2, 2, 1, fun r c _ => 2 * r + c + 1⟩ : Tensor ℚ) (identity 2 2 1)).get (by decide +kernel),
    by simp, ?_, by decide +kernel, by decide +kernel⟩
  intro h
  have := h.2.2.2 0 1 0 (by decide +kernel) (by decide +kernel) (by decide +kernel)
  revert this
  decide +kernel

example : ∃ (a b : Tensor ℚ), (a.rows = 1 ∧ a.cols = 1 ∧ a.chans = b.chans) ∧ (b.rows = 1 ∧ b.cols = 1) ∧ (∀ k, k < b.chans → b.get 0 0 k ≠ 0) ∧
    (matdiv a b).map values = some [3] :=
  ⟨⟨1, 1, 1, fun _ _ _ => 6⟩, ⟨1, 1, 1, fun _ _ _ => 2⟩, by decide, by decide, fun _ _ => two_ne_zero, by decide +kernel⟩

end Verif.Inverse
