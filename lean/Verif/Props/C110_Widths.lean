import Verif.Props.C109_LabelNetwork
import Verif.Model.LabelTask

/-!
# C110: the layers of a label network have units

Every layer of the network made for a label task delivers at least one value, so that predictions can depend on the inputs.
-/

namespace Verif.LabelNetwork
open Verif Verif.Enums Verif.Dsl Verif.Wiring Verif.Views Verif.Layers

/-- Every column has a value. -/
def NonEmpty (l : List Shape) : Prop := ∀ s ∈ l, 0 < s.rows * s.cols * s.chans

theorem total_pos (l : List Shape) (h : NonEmpty l) (hne : l ≠ []) : 0 < total l := by
  cases l with
  | nil => exact absurd rfl hne
  | cons s l => exact lt_of_lt_of_le (h s List.mem_cons_self) (le_total _ s List.mem_cons_self)

theorem widths_pos (n : LabelNet) (hg : 0 < total n.given) (he : 0 < total n.expected) (hc : 1 ≤ n.complexity) :
    0 < widthGiven n ∧ 0 < secondWidth n := by
  have h1 : (1 : ℚ) ≤ total n.expected := by exact_mod_cast he
  have hw : 0 < widthGiven n := by
    unfold widthGiven
    rw [lt_min_iff]
    refine ⟨hg, ?_⟩
    rw [Nat.floor_pos]
    nlinarith
  refine ⟨hw, ?_⟩
  unfold secondWidth
  split
  · exact hw
  · unfold widthExpected
    rw [Nat.floor_pos]
    nlinarith

/-- C110, for complexities from one on, as tried at first (`C66_combinations`). -/
theorem C110_partial (n : LabelNet) (h : Acceptable n) (hg : NonEmpty n.given) (he : NonEmpty n.expected) (hne : n.expected ≠ []) (hc : 1 ≤ n.complexity) :
    ∃ ops d, labelOps n = some ops ∧ run ops = some d ∧ NonEmpty (d.map fun x => x.1.outShape) := by
  have hg0 : n.given ≠ [] := by
    intro h0
    have := h.2
    rw [h0] at this
    exact this
  obtain ⟨ops, h1, h2⟩ := labelOps_ok n hg0
  refine ⟨ops, vertices n, h1, h2, ?_⟩
  have hgt := total_pos _ hg hg0
  have het := total_pos _ he hne
  obtain ⟨w1, w2⟩ := widths_pos n hgt het hc
  have hrow : ∀ w, 0 < w → 0 < (⟨1, w, 1⟩ : Shape).rows * (⟨1, w, 1⟩ : Shape).cols * (⟨1, w, 1⟩ : Shape).chans := by intro w hw; simpa using hw
  have hfirst : 0 < (firstShape n).rows * (firstShape n).cols * (firstShape n).chans := by
    unfold firstShape
    split
    · rename_i g hgn
      have hl := le_total n.given g (by rw [hgn]; simp)
      split
      · rename_i hi
        have h' := h.2
        rw [hgn] at h'
        simp only [hi, if_true] at h'
        obtain ⟨a1, a2, a3⟩ := h'
        have hp : g.rows * g.cols * g.chans < 2 ^ 64 := lt_of_le_of_lt hl h.1
        have hr : g.rows < 2 ^ 64 := lt_of_le_of_lt (le_prod _ _ _ (by omega) a3) hp
        have hcl : g.cols < 2 ^ 64 := by
          refine lt_of_le_of_lt ?_ hp
          rw [Nat.mul_comm g.rows]
          exact le_prod _ _ _ (by omega) a3
        simp only
        rw [wrap_conv _ hr a1, wrap_conv _ hcl a2, Nat.mul_one]
        exact Nat.mul_pos (by omega) (by omega)
      · exact hrow _ w1
    · exact hrow _ w1
  have hbefore : ∀ x ∈ before n, 0 < x.1.outShape.rows * x.1.outShape.cols * x.1.outShape.chans := by
    intro x hx
    unfold before at hx
    split at hx
    · cases hx
    · rw [List.mem_append, List.mem_singleton, List.mem_map] at hx
      rcases hx with ⟨s, hs, rfl⟩ | rfl
      · apply hrow
        rw [wrap_of_lt _ (lt_of_le_of_lt (le_total _ s hs) h.1)]
        exact hg s hs
      · have : (concatenation (n.given.map fun s => (⟨1, wrap (s.rows * s.cols * s.chans), 1⟩ : Shape))).outShape = ⟨1, total n.given, 1⟩ := by
          unfold concatenation
          simp only [List.map_map]
          show (⟨1, wrap (n.given.map fun s => wrap (s.rows * s.cols * s.chans)).sum, 1⟩ : Shape) = _
          rw [sum_wrapped _ h.1, wrap_of_lt _ h.1]
        rw [this]
        exact hrow _ hgt
  intro s hs
  rw [List.mem_map] at hs
  obtain ⟨x, hx, rfl⟩ := hs
  unfold vertices hiddenVs upToFirst at hx
  simp only [List.mem_append, List.mem_singleton, List.mem_map] at hx
  rcases hx with (((((hx | rfl) | rfl) | rfl) | rfl) | hx) | ⟨s, hs, rfl⟩
  · exact hbefore x hx
  · rw [firstV_out]; exact hfirst
  · exact hfirst
  · exact hrow _ w2
  · exact hrow _ w2
  · split at hx
    · rw [List.mem_singleton] at hx
      subst hx
      apply hrow
      rw [widthExpected_one]
      exact het
    · cases hx
  · exact he s hs

/-- C110 fails for smaller complexities: if the second hidden layer gets no unit, and there is no additional layer, predictions do not depend on the inputs. -/
theorem C110_constant (n : LabelNet) (h : Acceptable n) (hz : Sized n) (hl : n.loss ≠ .categoricalCrossEntropy) (h0 : secondWidth n = 0) (p : Nat → Params)
    (ts ts' : List (Tensor ℝ)) (hts : List.Forall₂ HasShape ts n.given) (hts' : List.Forall₂ HasShape ts' n.given) :
    ∃ ops d, labelOps n = some ops ∧ run ops = some d ∧ predict d p ts = predict d p ts' := by
  have hg0 : n.given ≠ [] := by
    intro h0
    have := h.2
    rw [h0] at this
    exact this
  obtain ⟨ops, h1, h2⟩ := labelOps_ok n hg0
  refine ⟨ops, vertices n, h1, h2, ?_⟩
  obtain ⟨val, t, w5, ht, hs, w6⟩ := last_hidden n h hz p ts hts
  obtain ⟨val', t', w5', ht', hs', w6'⟩ := last_hidden n h hz p ts' hts'
  rw [w6, w6']
  congr 1
  apply List.map_congr_left
  intro i hi
  rw [List.mem_range] at hi
  rw [output_value n p ts val w5 t ht i hi, output_value n p ts' val' w5' t' ht' i hi]
  congr 1
  have hls : lastShape n = ⟨1, 0, 1⟩ := by unfold lastShape; rw [if_neg hl, h0]
  have hparts : ∀ q s, parts q (outV n s) = some
      [.full ⟨⟨wrapped (lastShape n), wrapped s, 1, fun r c _ => q.weight r c⟩, 0, none, [], []⟩, .bias ⟨⟨s.rows, s.cols, s.chans, q.bias⟩, 0, []⟩,
        .activation (lastAct n)] := by
    intro q s
    simp [parts, mainParts, outV, plainV, flattenFirst, hls, Vertex.weighted]
  have key : ∀ (q : Params) (s : Shape) (u : Tensor ℝ), HasShape u (lastShape n) →
      Part.forward (.full ⟨⟨wrapped (lastShape n), wrapped s, 1, fun r c _ => q.weight r c⟩, 0, none, [], []⟩) [u] = some ⟨1, wrapped s, 1, fun _ _ _ => 0⟩ := by
    intro q s u hu
    obtain ⟨u1, u2, u3⟩ := hu
    rw [hls] at u1 u2 u3
    have hm : matmul u ⟨wrapped (lastShape n), wrapped s, 1, fun r c _ => q.weight r c⟩ = some ⟨1, wrapped s, 1, fun _ _ _ => 0⟩ := by
      unfold matmul
      rw [if_neg (by simp only; rw [hls, u2]; decide), if_neg (by simp only; rw [u3]; simp)]
      rw [u1, u2, u3]
      rfl
    show ((matmul u _).map _).map _ = _
    rw [hm]; rfl
  rw [hparts, Option.bind_some, Option.bind_some]
  simp only [chain, key _ _ _ hs, key _ _ _ hs']

/-- The search comes to such a network: for one expected number, if the last remaining combination has complexity one, the next round also tries complexity one
half (`LabelTask.neighbours`), for which no hidden layer has a unit. -/
theorem C110_violated (given : List Shape) (image : Bool) (rate : ℚ) :
    ⟨1 / 2, rate⟩ ∈ LabelTask.neighbours ⟨1, rate⟩ ∧
      ∀ goal, widthGiven (labelNet given [⟨1, 1, 1⟩] image goal (1 / 2)) = 0 ∧ secondWidth (labelNet given [⟨1, 1, 1⟩] image goal (1 / 2)) = 0 ∧
        (labelNet given [⟨1, 1, 1⟩] image goal (1 / 2)).loss ≠ .categoricalCrossEntropy := by
  have h1 : ∀ goal, widthGiven (labelNet given [⟨1, 1, 1⟩] image goal (1 / 2)) = 0 := by
    intro goal
    unfold widthGiven
    rw [Nat.min_eq_zero_iff]
    right
    rw [Nat.floor_eq_zero]
    norm_num [labelNet, total]
  refine ⟨by simp [LabelTask.neighbours], fun goal => ⟨h1 goal, ?_, ?_⟩⟩
  · unfold secondWidth
    split
    · exact h1 goal
    · unfold widthExpected
      rw [Nat.floor_eq_zero]
      norm_num [labelNet, total]
  · cases goal <;> simp [labelNet, lossFor]

/-- Concrete networks that meet the hypotheses of `C110_partial` and of `C110_constant`. -/
example : NonEmpty [(⟨1, 3, 1⟩ : Shape), ⟨4, 5, 2⟩] ∧ Acceptable (labelNet [⟨1, 3, 1⟩, ⟨4, 5, 2⟩] [⟨1, 1, 1⟩] false .other (1 / 2)) ∧
    Sized (labelNet [⟨1, 3, 1⟩, ⟨4, 5, 2⟩] [⟨1, 1, 1⟩] false .other (1 / 2)) := by
  refine ⟨?_, ⟨by decide, ?_⟩, ⟨by decide, ?_⟩⟩
  · unfold NonEmpty; decide
  · simp [labelNet]
  · refine lt_of_le_of_lt (b := 100) ?_ (by norm_num)
    unfold widthExpected
    apply Nat.floor_le_of_le
    norm_num [labelNet, total]

end Verif.LabelNetwork
